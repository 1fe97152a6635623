Ebi.Props.c01_bit_stream_round_trip: propext, Classical.choice, Quot.sound
Ebi.Props.c02_writer_length: propext, Classical.choice, Quot.sound
Ebi.Props.c03_read_bits: propext, Classical.choice, Quot.sound
Ebi.Props.c03_read_bit: propext, Classical.choice, Quot.sound
Ebi.Props.c03_read_byte: propext, Classical.choice, Quot.sound
Ebi.Props.c03_peek: propext, Classical.choice, Quot.sound
Ebi.Props.c03_reachable: propext, Classical.choice, Quot.sound
Ebi.Props.c03_skip_past_end_panics: propext, Quot.sound
Ebi.Props.c04_truncate: propext, Classical.choice, Quot.sound
Ebi.Props.c05_gorilla_lossless: propext, Classical.choice, Quot.sound
Ebi.Props.c05_gorilla_nan_cuts: propext, Classical.choice, Quot.sound
Ebi.Props.c06_chimp_lossless: propext, Classical.choice, Quot.sound
Ebi.Props.c06_chimp_nan_cuts: propext, Classical.choice, Quot.sound
Ebi.Props.c07_chimp128_lossless: propext, Classical.choice, Quot.sound
Ebi.Props.c07_chimp128_nan_cuts: propext, Classical.choice, Quot.sound
Ebi.Props.c07_no_underflow: propext, Classical.choice, Quot.sound
Ebi.Props.c08_elf_xor_lossless: propext, Classical.choice, Quot.sound
Ebi.Props.c08_elf_xor_nan_cuts: propext, Classical.choice, Quot.sound
Ebi.Props.c08_debug_shift_overflow: propext, Quot.sound
Ebi.Props.c08_debug_shift_overflow_only: propext, Quot.sound
Ebi.Props.c09_elf_partial: propext, Classical.choice, Quot.sound
Ebi.Props.c09_elf_on_chimp_partial: propext, Classical.choice, Quot.sound
Ebi.Props.c09_elf_wide_partial: propext, Classical.choice, Quot.sound
Ebi.Props.c09_elf_on_chimp_wide_partial: propext, Classical.choice, Quot.sound
Ebi.Props.c09_elf_nan_cuts: propext, Classical.choice, Quot.sound
Ebi.Props.c09_elf_on_chimp_nan_cuts: propext, Classical.choice, Quot.sound
Ebi.Props.c09_elf_lossy: propext, Quot.sound
Ebi.Props.c09_elf_on_chimp_lossy: propext, Quot.sound
Ebi.Props.c10_rle_lossless: propext, Classical.choice, Quot.sound
Ebi.Props.c10_rle_iterator: propext, Classical.choice, Quot.sound
Ebi.Props.c10_rle_empty_panics: propext, Quot.sound
Ebi.Props.c11_uncompressed_lossless: propext, Classical.choice, Quot.sound
Ebi.Props.c12_sprintz_lossless: propext, Classical.choice, Quot.sound
Ebi.Props.c12_scale_truncated: propext, Classical.choice, Quot.sound
Ebi.Props.c12_large_scale_fails: propext, Quot.sound
Ebi.Props.c12_width: propext, Classical.choice, Quot.sound
Ebi.Props.c12_empty_panics: propext, Quot.sound
Ebi.Props.c12_debug_panic_iff: propext, Classical.choice, Quot.sound
Ebi.Props.c12_no_debug_panic: propext, Classical.choice, Quot.sound
Ebi.Props.c13_fixed_round_trip: propext, Classical.choice, Quot.sound
Ebi.Props.c13_buff_round_trip: propext, Classical.choice, Quot.sound
Ebi.Props.c13_empty_panics: propext, Quot.sound
Ebi.Props.c14_truncation: propext, Classical.choice, Quot.sound
Ebi.Props.c14_error_bound: propext, Classical.choice, Quot.sound
Ebi.Props.c15_controlled_precision: propext, Classical.choice, Quot.sound
Ebi.Props.c15_not_above: propext, Classical.choice, Quot.sound
Ebi.Props.c15_error_bound_partial: propext, Classical.choice, Quot.sound
Ebi.Props.c15_bound_attained: propext, Quot.sound
Ebi.Props.c15_decoder_materialize: propext, Classical.choice, Quot.sound
Ebi.Props.c16_zigzag_bijection: propext, Classical.choice, Quot.sound
Ebi.Props.c16_zigzag_code: propext, Classical.choice, Quot.sound
Ebi.Props.c17_gorilla: propext, Classical.choice, Quot.sound
Ebi.Props.c17_chimp: propext, Classical.choice, Quot.sound
Ebi.Props.c17_chimp128_partial: propext, Classical.choice, Quot.sound
Ebi.Props.c17_chimp128_wraps: propext, Classical.choice, Quot.sound
Ebi.Props.c17_elf_partial: propext, Classical.choice, Quot.sound
Ebi.Props.c17_elf_wrapper_undercounts: propext, Quot.sound
Ebi.Props.c18_gorilla: propext, Classical.choice, Quot.sound
Ebi.Props.c18_chimp: propext, Classical.choice, Quot.sound
Ebi.Props.c18_chimp128_partial: propext, Classical.choice, Quot.sound
Ebi.Props.c18_chimp128_too_small: propext, Classical.choice, Quot.sound
Ebi.Props.c18_chimp128_violated: propext, Classical.choice, Quot.sound
Ebi.Props.c18_gorilla_over_estimates: propext, Quot.sound
Ebi.Props.c18_rle: propext, Quot.sound
Ebi.Props.c18_uncompressed: propext, Quot.sound
Ebi.Props.c18_sprintz: none
Ebi.Props.c18_buff: none
Ebi.Props.c18_elf: propext, Classical.choice, Quot.sound
Ebi.Props.c18_elf_on_chimp: propext, Classical.choice, Quot.sound
Ebi.Props.c18_external: none
Ebi.Props.c19_rle_append: propext, Classical.choice, Quot.sound
Ebi.Props.c19_uncompressed_append: propext
Ebi.Props.c20_rle_refines_list: propext, Classical.choice, Quot.sound
Ebi.Props.c20_rle_rewind_undoes: propext, Classical.choice, Quot.sound
Ebi.Props.c20_rle_rewind_too_far: propext, Classical.choice, Quot.sound
Ebi.Props.c20_uncompressed_partial: propext, Quot.sound
Ebi.Props.c20_uncompressed_total_in_wrong: none
Ebi.Props.c21_gorilla_reuse: propext, Classical.choice, Quot.sound
Ebi.Props.c21_chimp_reuse: propext, Classical.choice, Quot.sound
Ebi.Props.c21_chimp128_reuse: propext, Classical.choice, Quot.sound
Ebi.Props.c21_chimp128_announced: propext, Classical.choice, Quot.sound
Ebi.Props.c21_rle_reuse: propext, Quot.sound
Ebi.Props.c21_uncompressed_reuse: none
Ebi.Props.c21_sprintz_reuse: propext, Quot.sound
Ebi.Props.c21_sprintz_total_in: propext, Classical.choice, Quot.sound
Ebi.Props.c21_buff_reuse: propext, Quot.sound
Ebi.Props.c21_buff_total_in_leaks: propext, Quot.sound
Ebi.Props.c21_elf_reuse: propext, Classical.choice, Quot.sound
Ebi.Props.c21_elf_on_chimp_reuse: propext, Classical.choice, Quot.sound
Ebi.Props.c22_header: propext, Classical.choice, Quot.sound
Ebi.Props.c22_chunk_option: propext, Classical.choice, Quot.sound
Ebi.Props.c22_config: propext, Classical.choice, Quot.sound
Ebi.Props.c22_config_injective: propext, Classical.choice, Quot.sound
Ebi.Props.c22_scheme: propext
Ebi.Props.c22_footer: propext, Classical.choice, Quot.sound
Ebi.Props.c22_file: propext, Classical.choice, Quot.sound
Ebi.Props.c23_file_round_trip: propext, Classical.choice, Quot.sound
Ebi.Props.c23_lossless_schemes: propext, Classical.choice, Quot.sound
Ebi.Props.c23_every_scheme: propext, Classical.choice, Quot.sound
Ebi.Props.scheme_law: propext, Classical.choice, Quot.sound
Ebi.Props.c24_directory: propext, Classical.choice, Quot.sound
Ebi.Props.c25_chunk_sizes_partial: propext, Classical.choice, Quot.sound
Ebi.Props.c25_zero_drops: propext, Classical.choice, Quot.sound
Ebi.Props.c25_huge_panics: propext, Classical.choice, Quot.sound
Ebi.Props.c25_count_wraps: propext, Quot.sound
Ebi.Props.c25_estimate_rounds: none
Ebi.Props.c25_view_in_buffer: propext, Classical.choice, Quot.sound
Ebi.Props.c26_delivery_partial: propext, Classical.choice, Quot.sound
Ebi.Props.c26_full_interrupted: propext, Classical.choice, Quot.sound
Ebi.Props.c26_interrupted_fails: propext
Ebi.Props.c26_interrupted_loses: propext
Ebi.Props.c27_trailing_partial_record: propext, Classical.choice, Quot.sound
Ebi.Props.c28_empty_input_partial: propext, Classical.choice, Quot.sound
Ebi.Props.c28_empty_input_panics: propext, Classical.choice, Quot.sound
Ebi.Props.c29_crash_partial: propext, Classical.choice, Quot.sound
Ebi.Props.c29_full_never_accepted: propext, Classical.choice, Quot.sound
Ebi.Props.c29_crash_accepted: propext, Quot.sound
Ebi.Props.c30_materialize: propext, Classical.choice, Quot.sound
Ebi.Props.c30_materialize_chunk: propext, Classical.choice, Quot.sound
Ebi.Props.c30_every_scheme: propext, Classical.choice, Quot.sound
Ebi.Props.c31_filter: propext, Classical.choice, Quot.sound
Ebi.Props.c31_decoder_filter: propext, Classical.choice, Quot.sound
Ebi.Props.c32_filter_then_materialize: propext, Classical.choice, Quot.sound
Ebi.Props.c32_decoder: propext, Classical.choice, Quot.sound
Ebi.Props.c33_min: propext, Classical.choice, Quot.sound
Ebi.Props.c33_max: propext, Classical.choice, Quot.sound
Ebi.Props.c33_sum: propext, Classical.choice, Quot.sound
Ebi.Props.c33_empty_selection: propext, Classical.choice, Quot.sound
Ebi.Props.soft_minMax: propext, Quot.sound
Ebi.Props.c33_decoder_min: propext, Classical.choice, Quot.sound
Ebi.Props.c33_decoder_max: propext, Classical.choice, Quot.sound
Ebi.Props.c33_decoder_sum: propext, Classical.choice, Quot.sound
Ebi.Props.c34_materialize: propext, Classical.choice, Quot.sound
Ebi.Props.c34_filter: propext, Classical.choice, Quot.sound
Ebi.Props.c34_filter_materialize: propext, Classical.choice, Quot.sound
Ebi.Props.c34_min: propext, Classical.choice, Quot.sound
Ebi.Props.c34_max: propext, Classical.choice, Quot.sound
Ebi.Props.c34_sum: propext, Classical.choice, Quot.sound
Ebi.Props.soft_zeroLaw: propext, Classical.choice, Quot.sound
Ebi.Props.c35_comparisons: propext, Classical.choice, Quot.sound
Ebi.Props.c35_eq_ne: propext, Classical.choice, Quot.sound
Ebi.Props.c35_range: propext, Classical.choice, Quot.sound
Ebi.Props.c35_nan: propext, Classical.choice, Quot.sound
Ebi.Props.c35_zeros: none
Ebi.Props.c36_filter_partial: propext, Classical.choice, Quot.sound
Ebi.Props.c36_range_unmasked: propext, Classical.choice, Quot.sound
Ebi.Props.c36_ignores_bitmask: propext, Quot.sound
Ebi.Props.c36_equal_aliases: propext, Quot.sound
Ebi.Props.c36_decoder_filter_partial: propext, Classical.choice, Quot.sound
Ebi.Props.c36_decoder_range: propext, Classical.choice, Quot.sound
Ebi.Props.c36_decoder_ignores_bitmask: propext, Classical.choice, Quot.sound
Ebi.Props.c37_split: propext, Quot.sound
Ebi.Props.c37_equal_column: propext, Classical.choice, Quot.sound
Ebi.Props.c37_compare_column: propext, Classical.choice, Quot.sound
Ebi.Props.c37_compare_masked: propext, Classical.choice, Quot.sound
Ebi.Props.c38_max: propext, Classical.choice, Quot.sound
Ebi.Props.c38_min: propext, Classical.choice, Quot.sound
Ebi.Props.c38_empty: propext, Classical.choice, Quot.sound
Ebi.Props.c38_sum_partial: propext, Classical.choice, Quot.sound
Ebi.Props.c38_sum_no_overflow: propext, Quot.sound
Ebi.Props.c38_sum_constant: propext, Classical.choice, Quot.sound
Ebi.Props.c38_sum_ignores_bitmask: propext, Quot.sound
Ebi.Props.c38_decoder_max: propext, Classical.choice, Quot.sound
Ebi.Props.c38_decoder_min: propext, Classical.choice, Quot.sound
Ebi.Props.c38_decoder_sum: propext, Classical.choice, Quot.sound
Ebi.Props.c38_decoder_sum_ignores_bitmask: propext, Classical.choice, Quot.sound
Ebi.Props.soft_scale: propext, Classical.choice, Quot.sound
Ebi.Props.c39_filter: propext, Classical.choice, Quot.sound
Ebi.Props.c39_sum: propext, Classical.choice, Quot.sound
Ebi.Props.c39_max: propext, Classical.choice, Quot.sound
Ebi.Props.c39_min: propext, Classical.choice, Quot.sound
Ebi.Props.c39_decoder_filter: propext, Classical.choice, Quot.sound
Ebi.Props.c39_decoder_sum: propext, Classical.choice, Quot.sound
Ebi.Props.c39_decoder_max: propext, Classical.choice, Quot.sound
Ebi.Props.c39_decoder_min: propext, Classical.choice, Quot.sound
Ebi.Props.c39_filter_materialize: propext, Quot.sound
Ebi.Props.c40_default: propext, Quot.sound
Ebi.Props.c40_default_answers: propext, Quot.sound
Ebi.Props.c40_value_queries: propext, Quot.sound
Ebi.Props.c40_buff: propext, Quot.sound
Ebi.Props.c40_sprintz_partial: propext, Classical.choice, Quot.sound
Ebi.Props.c40_sprintz_cached: propext, Quot.sound
Ebi.Props.c40_sprintz_garbage: propext, Quot.sound
Ebi.Props.c40_buff_precision_cache: propext, Quot.sound
Ebi.Props.c40_sprintz_min_after_materialize: propext, Classical.choice, Quot.sound
Ebi.Props.c40_sprintz_min_history: propext, Quot.sound
Ebi.Props.c40_sprintz_filter_history: propext, Quot.sound
Ebi.Props.c40_sprintz_predicate_rounded: propext, Quot.sound
Ebi.Props.c41_knn_partial: propext, Classical.choice, Quot.sound
Ebi.Props.c41_empty_target: propext, Classical.choice, Quot.sound
Ebi.Props.c41_straddling_wrong: propext, Classical.choice, Quot.sound
Ebi.Props.c41_any: propext, Classical.choice, Quot.sound
Ebi.Props.c41_numbers: propext, Quot.sound
Ebi.Props.c41_index_bound: propext, Quot.sound
Ebi.Props.c41_too_many: propext, Quot.sound
Ebi.Props.c41_out_of_range: propext, Classical.choice, Quot.sound
Ebi.Props.c42_matmul_partial: propext, Classical.choice, Quot.sound
Ebi.Props.c42_preconditions: propext, Quot.sound
Ebi.Props.c42_zero_shape_panics: propext, Quot.sound
Ebi.Props.c42_straddling_wrong: propext, Classical.choice, Quot.sound
Ebi.Props.c42_target_unchecked: propext, Quot.sound
Ebi.Props.c42_any: propext, Classical.choice, Quot.sound
Ebi.Props.c42_result_size: propext, Quot.sound
Ebi.Props.c43_pointwise_partial: propext, Classical.choice, Quot.sound
Ebi.Props.c43_files_partial: propext, Classical.choice, Quot.sound
Ebi.Props.c43_literals_rejected: propext, Quot.sound
Ebi.Props.c43_constant_part_rejected: propext, Classical.choice, Quot.sound
Ebi.Props.c43_max_index: propext, Quot.sound
Ebi.Props.c43_constant_part_witness: propext, Quot.sound
Ebi.Props.c44_compound: propext, Classical.choice, Quot.sound
Ebi.Props.c44_none: propext, Classical.choice, Quot.sound
Ebi.Props.c44_max: propext, Classical.choice, Quot.sound
Ebi.Props.c44_min: propext, Classical.choice, Quot.sound
Ebi.Props.c44_sum: propext, Classical.choice, Quot.sound
Ebi.Props.c44_rejected: propext, Classical.choice, Quot.sound
Ebi.Props.c44_together: propext, Classical.choice, Quot.sound
Ebi.Props.c44_bare: propext, Quot.sound
Ebi.Props.c44_bare_max: propext, Classical.choice, Quot.sound
Ebi.Props.c44_bare_min: propext, Classical.choice, Quot.sound
Ebi.Props.c44_bare_sum: propext, Classical.choice, Quot.sound
Ebi.Props.c44_bare_none_panics: propext, Quot.sound
Ebi.Props.c44_together_panics: propext, Quot.sound
Ebi.Props.c44_nothing_panics: propext, Quot.sound
Ebi.Props.c45_duration: propext, Classical.choice, Quot.sound
Ebi.Props.c45_times: propext, Classical.choice, Quot.sound
Ebi.Props.c46_gorilla: propext, Classical.choice, Quot.sound
Ebi.Props.c46_chimp: propext, Classical.choice, Quot.sound
Ebi.Props.c46_chimp128: propext, Classical.choice, Quot.sound
Ebi.Props.c46_elf_xor: propext, Classical.choice, Quot.sound
Ebi.Props.c46_elf: propext, Classical.choice, Quot.sound
Ebi.Props.c46_elf_on_chimp: propext, Classical.choice, Quot.sound
Ebi.Props.c47_sizes: propext, Classical.choice, Quot.sound
Ebi.Props.c48_foreign_partial: propext, Quot.sound
Ebi.Props.c48_not_verified: propext, Classical.choice, Quot.sound
Ebi.Props.c36_decoder_filter_materialize: propext, Classical.choice, Quot.sound
Ebi.Props.c32_sprintz_differs: propext, Classical.choice, Quot.sound
Ebi.Props.c50_success_is_complete: propext, Classical.choice, Quot.sound
Ebi.Props.c50_buffered_success_is_complete: propext, Classical.choice, Quot.sound
Ebi.Props.c50_short_writes: propext, Classical.choice, Quot.sound
Ebi.Props.c50_terminates: propext, Classical.choice, Quot.sound
Ebi.Props.c50_interrupted_write: propext, Classical.choice, Quot.sound
Ebi.Props.c50_append_broken: propext, Quot.sound
Ebi.Props.c51_failure_leaves: propext, Classical.choice, Quot.sound
Ebi.Props.c51_buffered_failure_leaves: propext, Classical.choice, Quot.sound
Ebi.Props.c51_torn_elapsed: propext, Classical.choice, Quot.sound
Ebi.Props.c51_full_rejected: propext, Classical.choice, Quot.sound
Ebi.Props.c51_library_refuses: propext, Quot.sound
Ebi.Props.c52_open: propext, Quot.sound
Ebi.Props.c52_queries: propext, Quot.sound
Ebi.Props.c52_knn_matmul: propext, Quot.sound
Ebi.Props.c52_aggregations: propext, Quot.sound
Ebi.Props.c52_overwritten: propext, Classical.choice, Quot.sound
Ebi.Props.c53_materialize: propext, Classical.choice, Quot.sound
Ebi.Props.c53_filter_materialize: propext, Classical.choice, Quot.sound
Ebi.Props.c53_buffered_partial: propext, Classical.choice, Quot.sound
Ebi.Props.c53_buffered_lost: propext, Quot.sound
Ebi.Props.c54_no_bitmask_partial: propext, Classical.choice, Quot.sound
Ebi.Props.c54_last_chunk_ignored: propext, Classical.choice, Quot.sound
Ebi.Props.c54_full_ignored: propext, Classical.choice, Quot.sound
Ebi.Props.c54_filter_wrong_record: propext, Classical.choice, Quot.sound
Ebi.Props.c55_gorilla_worst: propext, Classical.choice, Quot.sound
Ebi.Props.c55_chimp_worst: propext, Classical.choice, Quot.sound
Ebi.Props.c55_chimp128_worst: propext, Classical.choice, Quot.sound
Ebi.Props.c55_elf_worst: propext, Classical.choice, Quot.sound
Ebi.Props.c55_elf_on_chimp_worst: propext, Classical.choice, Quot.sound
Ebi.Props.c55_worst_reached: propext, Quot.sound
Ebi.Props.c55_uncompressed_size: propext, Quot.sound
Ebi.Props.c55_sprintz_worst: propext, Classical.choice, Quot.sound
Ebi.Props.c55_buff_size: propext, Classical.choice, Quot.sound
Ebi.Props.c55_buff_worst: propext, Classical.choice, Quot.sound
Ebi.Props.c55_gorilla_repeat: propext, Classical.choice, Quot.sound
Ebi.Props.c55_chimp_repeat: propext, Classical.choice, Quot.sound
Ebi.Props.c55_elf_xor_repeat: propext, Classical.choice, Quot.sound
Ebi.Props.c55_chimp128_cost: propext, Classical.choice, Quot.sound
Ebi.Props.c55_chimp128_recall: propext, Classical.choice, Quot.sound
Ebi.Props.c55_chimp128_repeat: propext, Classical.choice, Quot.sound
Ebi.Props.c55_chimp128_forgets: propext, Classical.choice, Quot.sound
Ebi.Props.c55_runs_exist: propext
Ebi.Props.c55_rle_size: propext, Quot.sound
Ebi.Props.c55_rle_worst: propext, Quot.sound
Ebi.Props.c56_local: propext, Quot.sound
Ebi.Props.c56_open: propext, Quot.sound
Ebi.Props.c56_isolated: propext, Classical.choice, Quot.sound
Ebi.Props.c56_recover: propext, Classical.choice, Quot.sound
Ebi.Props.c56_undetected: propext, Classical.choice, Quot.sound
Ebi.Props.c57_sprintz: propext, Quot.sound
Ebi.Props.c57_sprintz_calls: propext, Quot.sound
Ebi.Props.c57_buff_header: propext, Classical.choice, Quot.sound
Ebi.Props.c57_read_chunk: propext, Quot.sound
Ebi.Props.c57_read_unaligned: propext, Quot.sound
Ebi.Props.c57_equal_simd: propext, Quot.sound
Ebi.Props.c57_comp_simd: propext, Quot.sound
Ebi.Props.c57_expr_index: propext, Classical.choice, Quot.sound
Ebi.Props.c57_expr_records: propext, Classical.choice, Quot.sound
Ebi.Props.c57_expr_leak: propext
Ebi.Props.c57_rules: propext, Classical.choice, Quot.sound
Ebi.Props.c58_lossless: propext, Classical.choice, Quot.sound
Ebi.Props.c58_codec: propext, Classical.choice, Quot.sound
Ebi.Props.c58_buffer: propext, Classical.choice, Quot.sound
Ebi.Props.c58_buffer_overrun: propext, Quot.sound
Ebi.Props.c58_truncated: propext, Classical.choice, Quot.sound
Ebi.Props.c58_load_rd: propext, Quot.sound
Ebi.Props.c58_load_alp: propext, Quot.sound
Ebi.Props.c58_load_group: propext, Quot.sound
Ebi.Props.c59_chunk: propext, Quot.sound
Ebi.Props.c59_aligned: propext, Quot.sound
Ebi.Props.c59_files_partial: propext, Quot.sound
Ebi.Props.c59_short_panics: propext, Classical.choice, Quot.sound
Ebi.Props.c59_silently_wrong: propext, Quot.sound
Ebi.Props.c59_unrelated_file: propext, Quot.sound
Ebi.Opened.attempt_erase: propext, Quot.sound
Ebi.Opened.attempt_erase_library: propext, Quot.sound
Ebi.Props.c60_stays_failed: propext, Classical.choice, Quot.sound
Ebi.Props.c60_buff: propext, Quot.sound
Ebi.Props.c60_sprintz_starts_over: propext, Classical.choice, Quot.sound
Ebi.Props.c60_sprintz_partial: propext, Classical.choice, Quot.sound
Ebi.Props.c60_library_answers_next_chunk: propext, Classical.choice, Quot.sound
Ebi.Props.c60_elf_makes_up: propext, Quot.sound
Ebi.Props.c60_sprintz_wide: propext, Quot.sound
Ebi.Props.c61_never_other: propext, Classical.choice, Quot.sound
Ebi.Props.c61_reported_partial: propext, Classical.choice, Quot.sound
Ebi.Props.c61_xor_cuts: propext, Classical.choice, Quot.sound
Ebi.Props.c61_two_bytes: propext, Quot.sound
Ebi.Props.c61_uncompressed_cuts: propext, Quot.sound
Ebi.Props.c61_rle_cuts: propext, Classical.choice, Quot.sound
Ebi.Props.c61_sprintz_cuts: propext, Classical.choice, Quot.sound
Ebi.Props.c61_buff_panics: propext, Classical.choice, Quot.sound
Ebi.Props.c61_library_cuts: propext
Ebi.Props.c61_zstd_zeros: propext, Classical.choice, Quot.sound
Ebi.Props.c61_buff_witness: propext, Quot.sound
Ebi.Props.c61_beyond_end: propext, Classical.choice, Quot.sound
Ebi.Props.c61_iterator: propext, Classical.choice, Quot.sound
Ebi.Props.c62_h06_partial: propext, Classical.choice, Quot.sound
Ebi.Props.c62_q6_rows: propext, Quot.sound
Ebi.Props.c62_h01_partial: propext, Classical.choice, Quot.sound
Ebi.Props.c62_h01_mislabelled: propext, Classical.choice, Quot.sound
Ebi.Props.c62_h01_simplified: propext, Classical.choice, Quot.sound
Ebi.Props.c62_extract: propext, Classical.choice, Quot.sound
Ebi.Props.c62_all_schemes: none
Ebi.Props.c62_buff_wrong: propext, Quot.sound
Ebi.Props.c62_null_lost: propext, Quot.sound
Ebi.Props.c62_no_column: propext, Classical.choice, Quot.sound
Ebi.Props.c62_unwritten: propext, Quot.sound
Ebi.Props.c63_matmul_partial: propext, Classical.choice, Quot.sound
Ebi.Props.c63_transposed: propext, Classical.choice, Quot.sound
Ebi.Props.c63_gemm: propext, Classical.choice, Quot.sound
Ebi.Props.c63_sizes: propext, Classical.choice, Quot.sound
Ebi.Props.c63_refused: propext, Classical.choice, Quot.sound
Ebi.Props.c63_preconditions: propext, Classical.choice, Quot.sound
Ebi.Props.c63_zero_shape_panics: propext, Quot.sound
Ebi.Props.c63_no_columns_panics: propext, Quot.sound
Ebi.Props.c63_larger_buffer_panics: propext, Classical.choice, Quot.sound
Ebi.Props.c63_layouts_differ: propext, Quot.sound
Ebi.Props.c64_precision_partial: propext, Quot.sound
Ebi.Props.c64_needed_enough: propext, Quot.sound
Ebi.Props.c64_needed_least: propext, Quot.sound
Ebi.Props.c64_upper_exponent: propext, Quot.sound
Ebi.Props.c64_precision_fails: propext
Ebi.Props.c64_large_exponent: propext, Classical.choice, Quot.sound
Ebi.Props.c64_chosen: propext, Classical.choice, Quot.sound
Ebi.Props.c64_few_above: propext, Classical.choice, Quot.sound
Ebi.Props.c64_chosen_exact: propext, Classical.choice, Quot.sound
Ebi.Props.c64_chosen_some: propext, Classical.choice, Quot.sound
Ebi.Props.c64_file_exact: propext, Classical.choice, Quot.sound
Ebi.Props.c64_file: propext, Classical.choice, Quot.sound
Ebi.Props.c64_file_some: propext, Classical.choice, Quot.sound
Ebi.Props.c64_lines: propext, Quot.sound
Ebi.Props.c64_trim: propext
Ebi.Props.c64_fields: propext
Ebi.Props.c64_space: propext, Classical.choice, Quot.sound
Ebi.Props.c64_no_panic: propext
Ebi.Props.c64_default_scale: propext, Quot.sound
Ebi.Props.c65_parse: propext, Quot.sound
Ebi.Props.c65_csv2bin: propext, Quot.sound
Ebi.Props.c65_readBack: propext, Classical.choice, Quot.sound
Ebi.Props.c65_file: propext, Classical.choice, Quot.sound
Ebi.Props.c65_end_to_end: propext, Classical.choice, Quot.sound
Ebi.Props.c65_filter: propext, Classical.choice, Quot.sound
Ebi.Props.c65_round_by_scale: propext, Classical.choice, Quot.sound
Ebi.Props.c65_wide_scale: propext, Classical.choice, Quot.sound
Ebi.Props.c65_negative_zero: propext, Quot.sound
Ebi.Props.c65_large_fails: propext, Classical.choice, Quot.sound
Ebi.Props.c65_upper_exponent_lost: propext, Classical.choice, Quot.sound
Ebi.Props.c65_all_numbers: propext, Quot.sound
Ebi.Props.c65_accepted: propext, Classical.choice, Quot.sound
Ebi.Props.c66_accuracy_partial: propext, Classical.choice, Quot.sound
Ebi.Props.c66_no_distance: propext, Classical.choice, Quot.sound
Ebi.Props.c66_no_repetition: propext, Classical.choice, Quot.sound
Ebi.Props.c66_same_accuracy: propext, Classical.choice, Quot.sound
Ebi.Props.c66_slurp: propext, Quot.sound
Ebi.Props.c66_scale_cast: propext, Quot.sound
Ebi.Props.c66_text_partial: propext, Classical.choice, Quot.sound
Ebi.Props.c66_one_series: propext, Quot.sound
Ebi.Props.c66_delta_reads_back: propext, Classical.choice, Quot.sound
Ebi.Props.c66_first_lost: propext, Quot.sound
Ebi.Props.c66_wrong_rounding: propext, Classical.choice, Quot.sound
Ebi.Props.c66_missing: propext, Quot.sound
Ebi.Props.c66_malformed: propext, Classical.choice, Quot.sound
Ebi.Props.c66_no_scale: propext, Quot.sound
Ebi.Props.c67_unique: propext, Quot.sound
Ebi.Props.c67_created: propext, Classical.choice, Quot.sound
Ebi.Props.c67_not_created: propext, Quot.sound
Ebi.Props.c67_distinct: propext, Classical.choice, Quot.sound
Ebi.Props.c67_constant: propext, Classical.choice, Quot.sound
Ebi.Props.c67_filter: propext, Classical.choice, Quot.sound
Ebi.Props.c67_filter_delta: propext, Classical.choice, Quot.sound
Ebi.Props.c67_experiment: propext, Classical.choice, Quot.sound
Ebi.Props.c67_json_moved: propext, Quot.sound
Ebi.Props.c68_check: propext, Classical.choice, Quot.sound
Ebi.Props.c68_safe_partial: propext, Classical.choice, Quot.sound
Ebi.Props.c68_clipped: propext, Classical.choice, Quot.sound
Ebi.Props.c68_skipped: propext, Classical.choice, Quot.sound
Ebi.Props.c68_negative: propext, Classical.choice, Quot.sound
Ebi.Props.c68_tail: propext, Quot.sound
Ebi.Props.c69_filters: propext, Classical.choice, Quot.sound
Ebi.Props.c69_history: propext, Quot.sound
Ebi.Props.c69_once_partial: propext, Classical.choice, Quot.sound
Ebi.Props.c69_path: propext, Quot.sound
Ebi.Props.c69_patched: propext, Classical.choice, Quot.sound
Ebi.Props.c69_all_partial: propext, Classical.choice, Quot.sound
Ebi.Props.c69_twice: propext, Classical.choice, Quot.sound
Ebi.Props.c69_again: propext, Classical.choice, Quot.sound
Ebi.Props.c69_kept: propext, Quot.sound
Ebi.Props.c69_left_out: propext, Classical.choice, Quot.sound
Ebi.Props.c69_no_resume: propext, Classical.choice, Quot.sound
Ebi.Props.c69_average_nan: propext, Quot.sound
Ebi.Props.c69_throughput_halved: propext
Ebi.Props.c70_values: propext, Classical.choice, Quot.sound
Ebi.Props.c70_full: propext, Quot.sound
Ebi.Props.c70_error: propext, Classical.choice, Quot.sound
Ebi.Props.c70_half_unit_partial: propext, Classical.choice, Quot.sound
Ebi.Props.c70_no_such_precision: propext, Classical.choice, Quot.sound
Ebi.Props.c70_in_situ: propext, Quot.sound
Ebi.Props.c70_filter_materialize: propext, Classical.choice, Quot.sound
Ebi.Props.c70_ignored: propext, Quot.sound
Ebi.Props.c70_rounds_differently: propext, Quot.sound
Ebi.Props.c70_disagree: propext, Classical.choice, Quot.sound
Ebi.Props.c70_written_outside: propext, Classical.choice, Quot.sound
Ebi.Props.c71_sizes: propext, Classical.choice, Quot.sound
Ebi.Props.c71_generated: propext, Classical.choice, Quot.sound
Ebi.Props.c71_products: propext, Classical.choice, Quot.sound
Ebi.Props.c71_delta: propext, Classical.choice, Quot.sound
Ebi.Props.c71_buff: propext, Classical.choice, Quot.sound
Ebi.Props.c72_materialize: propext, Classical.choice, Quot.sound
Ebi.Props.c72_filter: propext, Classical.choice, Quot.sound
Ebi.Props.c72_extrema: propext, Classical.choice, Quot.sound
Ebi.Props.c72_knn: propext, Classical.choice, Quot.sound
Ebi.Props.c72_matmul: propext, Classical.choice, Quot.sound
Ebi.Props.c72_sum_error: propext, Classical.choice, Quot.sound
Ebi.Props.c72_sum_close: propext, Classical.choice, Quot.sound
Ebi.Props.c72_sum_exact: propext, Classical.choice, Quot.sound
Ebi.Props.c72_sum_same: propext, Classical.choice, Quot.sound
Ebi.Props.c72_sum_differs: propext, Classical.choice, Quot.sound
Ebi.Props.c73_rounded_unique: propext, Classical.choice, Quot.sound
Ebi.Props.c73_add: propext, Classical.choice, Quot.sound
Ebi.Props.c73_sub: propext, Classical.choice, Quot.sound
Ebi.Props.c73_mul: propext, Classical.choice, Quot.sound
Ebi.Props.c73_div: propext, Classical.choice, Quot.sound
Ebi.Props.c73_casts: propext, Classical.choice, Quot.sound
Ebi.Props.c73_nan: propext, Quot.sound
Ebi.Props.c73_infinities: propext
Ebi.Props.c73_min_max: propext, Quot.sound
Ebi.Props.c73_compare: propext, Classical.choice, Quot.sound
Ebi.Props.c73_round: propext, Classical.choice, Quot.sound
Ebi.Props.c73_to_i64: propext, Classical.choice, Quot.sound
Ebi.Props.c73_decimal: propext, Classical.choice, Quot.sound
Ebi.Props.c74_items: propext
Ebi.Props.c74_blank_field: propext, Classical.choice, Quot.sound
Ebi.Props.c74_outcome: propext, Classical.choice, Quot.sound
Ebi.Props.c74_extrema: propext, Quot.sound
Ebi.Props.c74_ranges: propext, Quot.sound
Ebi.Props.c74_exponent: propext, Classical.choice, Quot.sound
Ebi.Props.c74_precision_average: propext, Classical.choice, Quot.sound
Ebi.Props.c74_exponent_average: propext, Classical.choice, Quot.sound
Ebi.Props.c74_exponent_sum: propext, Classical.choice, Quot.sound
Ebi.Props.c74_value_average: propext, Classical.choice, Quot.sound
Ebi.Props.c74_xor_average: propext, Classical.choice, Quot.sound
Ebi.Props.c74_ratio: propext, Classical.choice, Quot.sound
Ebi.Props.c74_deviation: propext, Classical.choice, Quot.sound
Ebi.Props.c74_report: propext, Quot.sound
Ebi.Props.c74_nan_loses_all: propext, Classical.choice, Quot.sound
Ebi.Props.c74_exponent_wraps: propext, Classical.choice, Quot.sound
Ebi.Props.c75_precision: propext, Classical.choice, Quot.sound
Ebi.Props.c75_scale: propext, Classical.choice, Quot.sound
Ebi.Props.c75_cut: propext
Ebi.Props.c75_supported: propext, Classical.choice, Quot.sound
Ebi.Props.c75_configs: none
Ebi.Props.c75_repetition: propext, Classical.choice, Quot.sound
Ebi.Props.c75_ratio: propext, Classical.choice, Quot.sound
Ebi.Props.c75_lossless: propext, Quot.sound
Ebi.Props.c75_results: propext, Classical.choice, Quot.sound
Ebi.Props.c75_missing_precision: propext, Quot.sound
Ebi.Props.c75_empty: propext, Classical.choice, Quot.sound
Ebi.Props.c75_ten_decimals: propext, Quot.sound
Ebi.Props.c76_extension: propext
Ebi.Props.c76_no_extension: propext
Ebi.Props.c76_numbered: propext, Classical.choice, Quot.sound
Ebi.Props.c76_free: propext, Classical.choice, Quot.sound
Ebi.Props.c76_save: propext, Classical.choice, Quot.sound
Ebi.Props.c76_sequence: propext, Classical.choice, Quot.sound
Ebi.Props.c76_race: propext, Classical.choice, Quot.sound
Ebi.Props.c76_safely: propext, Classical.choice, Quot.sound
Ebi.Props.c76_ucr_names: propext, Classical.choice, Quot.sound
Ebi.Props.c76_ucr_meet: propext, Classical.choice, Quot.sound
Ebi.Props.c76_saved: propext, Classical.choice, Quot.sound
Ebi.Props.c76_saved_name: propext, Classical.choice, Quot.sound
Ebi.Props.c76_compressed: propext, Classical.choice, Quot.sound
Ebi.Props.c76_compress: propext, Classical.choice, Quot.sound
Ebi.Props.c76_reported: propext, Classical.choice, Quot.sound
Ebi.Props.c76_lost: none
Ebi.Props.c77_new: propext, Quot.sound
Ebi.Props.c77_reset: propext, Quot.sound
Ebi.Props.c77_compress: propext, Quot.sound
Ebi.Props.c77_prepare: propext, Quot.sound
Ebi.Props.c77_sequence: propext, Quot.sound
Ebi.Props.c77_chunk: propext, Quot.sound
Ebi.Props.c78_transpose: propext, Classical.choice, Quot.sound
Ebi.Props.c78_count: propext, Classical.choice, Quot.sound
Ebi.Props.c78_methods: propext, Classical.choice, Quot.sound
Ebi.Props.c78_involution: propext, Classical.choice, Quot.sound
Ebi.Props.c78_map: propext
Ebi.Props.c78_aggregate: propext, Classical.choice, Quot.sound
Ebi.Props.c78_aggregate_all: propext, Classical.choice, Quot.sound
Ebi.Props.c78_average_order: propext
Ebi.Props.c78_decompression_nan: propext, Quot.sound
Ebi.Props.c78_decompression_halved: propext
Ebi.Props.c78_decompression_counted: propext
Ebi.Props.c79_timer: propext
Ebi.Props.c79_answers: propext, Quot.sound
Ebi.Props.c79_query: propext, Quot.sound
Ebi.Props.c79_kinds: propext, Quot.sound
Ebi.Props.c79_again: propext, Quot.sound
Ebi.Props.c79_whole_file: propext, Quot.sound
Ebi.Props.c79_sum_mislabelled: propext, Classical.choice, Quot.sound
Ebi.Props.c79_sum_elsewhere: propext, Classical.choice, Quot.sound
Ebi.Props.c79_knn: propext, Quot.sound
Ebi.Props.c79_matmul: propext, Quot.sound
Ebi.Props.c79_multiple: propext, Quot.sound
Ebi.Props.c79_compute: propext, Quot.sound
Ebi.Props.c79_column_unreported: propext, Quot.sound
Ebi.Props.c79_reads_unreported: propext, Classical.choice, Quot.sound
Ebi.Props.c79_encoder: propext, Quot.sound
Ebi.Props.c79_footer: propext, Classical.choice, Quot.sound
Ebi.Props.c79_compression_unmeasured: propext, Classical.choice, Quot.sound
Ebi.Props.c80_records: propext, Quot.sound
Ebi.Props.c80_same: propext, Classical.choice, Quot.sound
Ebi.Props.c80_others: propext, Classical.choice, Quot.sound
Ebi.Props.c80_success: propext, Classical.choice, Quot.sound
Ebi.Props.c80_failed: propext, Classical.choice, Quot.sound
Ebi.Props.c80_materialize: propext, Classical.choice, Quot.sound
Ebi.Props.c80_filter: propext, Classical.choice, Quot.sound
Ebi.Props.c80_max: propext, Classical.choice, Quot.sound
Ebi.Props.c80_round_trip: propext, Classical.choice, Quot.sound
Ebi.Props.c80_input_lost: propext, Classical.choice, Quot.sound
Ebi.Props.c80_save_dir: propext, Classical.choice, Quot.sound
Ebi.Props.c80_save_shared: propext, Classical.choice, Quot.sound
Ebi.Props.c81_materialize: propext, Classical.choice, Quot.sound
Ebi.Props.c81_filter_materialize: propext, Classical.choice, Quot.sound
Ebi.Props.c81_filter: propext, Classical.choice, Quot.sound
Ebi.Props.c81_max: propext, Classical.choice, Quot.sound
Ebi.Props.c81_min: propext, Classical.choice, Quot.sound
Ebi.Props.c81_sum: propext, Classical.choice, Quot.sound
Ebi.Props.c81_beyond: propext, Quot.sound
Ebi.Props.c81_as_bitmask: propext, Classical.choice, Quot.sound
Ebi.Props.c81_commands: propext, Classical.choice, Quot.sound
Ebi.Props.c81_command_sum: propext, Classical.choice, Quot.sound
Ebi.Props.c82_chain: propext, Classical.choice, Quot.sound
Ebi.Props.c82_order: propext, Classical.choice, Quot.sound
Ebi.Props.c82_values: propext, Classical.choice, Quot.sound
Ebi.Props.c82_aggregates: propext, Classical.choice, Quot.sound
Ebi.Props.c83_names: propext, Classical.choice, Quot.sound
Ebi.Props.c83_created: propext, Classical.choice, Quot.sound
Ebi.Props.c83_fresh: propext, Classical.choice, Quot.sound
Ebi.Props.c83_found: propext, Classical.choice, Quot.sound
Ebi.Props.c83_again: propext, Classical.choice, Quot.sound
Ebi.Props.c83_current_partial: propext, Classical.choice, Quot.sound
Ebi.Props.c83_stale: propext, Classical.choice, Quot.sound
Ebi.Props.c83_stale_fails: propext, Classical.choice, Quot.sound
Ebi.Props.c83_all: propext, Classical.choice, Quot.sound
Ebi.Props.c83_ends: propext, Classical.choice, Quot.sound
Ebi.Props.c83_comes_to_end: propext, Classical.choice, Quot.sound
Ebi.Props.c83_csv: propext, Classical.choice, Quot.sound
Ebi.Props.c83_csv_shadowed: propext, Classical.choice, Quot.sound
Ebi.Props.c83_exact: propext, Classical.choice, Quot.sound
