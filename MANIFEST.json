{
 "claims": [
  {
   "property": "C01",
   "status": "proved",
   "theorems": [
    "Smdiff.C01_uvarint_roundtrip",
    "Smdiff.C01_uvarint_grammar"
   ],
   "note": ""
  },
  {
   "property": "C02",
   "status": "proved",
   "theorems": [
    "Smdiff.C02_ivarint_roundtrip",
    "Smdiff.C02_zigzag_value",
    "Smdiff.C02_zigzag_bijection"
   ],
   "note": ""
  },
  {
   "property": "C03",
   "status": "proved",
   "theorems": [
    "Smdiff.C03_varint_size",
    "Smdiff.C03_varint_buffer",
    "Smdiff.C03_varint_minimal"
   ],
   "note": ""
  },
  {
   "property": "C04",
   "status": "proved",
   "theorems": [
    "Smdiff.C04_address_roundtrip",
    "Smdiff.C04_address_release",
    "Smdiff.C04_encode_debug",
    "Smdiff.C04_decode_debug"
   ],
   "note": ""
  },
  {
   "property": "C05",
   "status": "proved",
   "theorems": [
    "Smdiff.C05_op_roundtrip"
   ],
   "note": "a debug build on either side needs copies not exactly 2^63 away from the last address (C04)"
  },
  {
   "property": "C06",
   "status": "proved",
   "theorems": [
    "Smdiff.C06_written_is_grammatical"
   ],
   "note": ""
  },
  {
   "property": "C07",
   "status": "proved",
   "theorems": [
    "Smdiff.C07_reader_accepts_grammar"
   ],
   "note": ""
  },
  {
   "property": "C08",
   "status": "proved",
   "theorems": [
    "Smdiff.C08_reader_accepts_only_grammar"
   ],
   "note": ""
  },
  {
   "property": "C09",
   "status": "proved",
   "theorems": [
    "Smdiff.C09_release_never_panics",
    "Smdiff.C09_debug_agrees",
    "Smdiff.C09_truncation_is_error",
    "Smdiff.C09_debug_panics",
    "Smdiff.C09_never_panics_false"
   ],
   "note": "the stronger claim for debug builds is refuted with four witnesses (C09_never_panics_false)"
  },
  {
   "property": "C10",
   "status": "proved",
   "theorems": [
    "Smdiff.C10_header_roundtrip"
   ],
   "note": ""
  },
  {
   "property": "C11",
   "status": "proved",
   "theorems": [
    "Smdiff.C11_section_roundtrip"
   ],
   "note": ""
  },
  {
   "property": "C12",
   "status": "proved",
   "theorems": [
    "Smdiff.C12_write_ops_accepts_iff"
   ],
   "note": ""
  },
  {
   "property": "C13",
   "status": "proved",
   "theorems": [
    "Smdiff.C13_bad_run_never_ok",
    "Smdiff.C13_bad_run_panics"
   ],
   "note": ""
  },
  {
   "property": "C14",
   "status": "proved",
   "theorems": [
    "Smdiff.C14_section_delivers_header"
   ],
   "note": ""
  },
  {
   "property": "C15",
   "status": "proved",
   "theorems": [
    "Smdiff.C15_reported_add_bytes",
    "Smdiff.C15_reported_add_bytes_false",
    "Smdiff.C15_segregated_doubles"
   ],
   "note": ""
  },
  {
   "property": "C16",
   "status": "proved",
   "theorems": [
    "Smdiff.C16_partition",
    "Smdiff.C16_counts_exact"
   ],
   "note": ""
  },
  {
   "property": "C17",
   "status": "proved",
   "theorems": [
    "Smdiff.C17_greedy"
   ],
   "note": ""
  },
  {
   "property": "C18",
   "status": "proved",
   "theorems": [
    "Smdiff.C18_patch_roundtrip"
   ],
   "note": ""
  },
  {
   "property": "C19",
   "status": "proved",
   "theorems": [
    "Smdiff.C19_stays_ended",
    "Smdiff.C19_not_ended_before",
    "Smdiff.C19_new_not_ended"
   ],
   "note": ""
  },
  {
   "property": "C20",
   "status": "proved",
   "theorems": [
    "Smdiff.C20_ok_is_meaning",
    "Smdiff.C20_meaning_is_ok",
    "Smdiff.C20_no_sec_comp",
    "Smdiff.C20_no_sec_comp_ok",
    "Smdiff.C20_terminates"
   ],
   "note": ""
  },
  {
   "property": "C21",
   "status": "proved",
   "theorems": [
    "Smdiff.C21_out_of_range_is_error",
    "Smdiff.C21_undefined_iff",
    "Smdiff.C21_never_ok"
   ],
   "note": ""
  },
  {
   "property": "C22",
   "status": "proved",
   "theorems": [
    "Smdiff.C22_prefix_on_failure",
    "Smdiff.C22_prefix_of_result"
   ],
   "note": ""
  },
  {
   "property": "C23",
   "status": "proved",
   "theorems": [
    "Smdiff.C23_reused_sink",
    "Smdiff.C23_stale_bytes_leak",
    "Smdiff.C23_as_stated_false"
   ],
   "note": ""
  },
  {
   "property": "C24",
   "status": "proved",
   "theorems": [
    "Smdiff.C24_no_dictionary_needed",
    "Smdiff.C24_any_dictionary",
    "Smdiff.C24_missing_dictionary_panics"
   ],
   "note": ""
  },
  {
   "property": "C25",
   "status": "proved",
   "theorems": [
    "Smdiff.C25_output_size"
   ],
   "note": ""
  },
  {
   "property": "C26",
   "status": "proved",
   "theorems": [
    "Smdiff.C26_trailing_bytes",
    "Smdiff.C26_trailing_bytes_no_sec_comp"
   ],
   "note": "with zstd/brotli sections: given libraries that decompress from left to right (Framed)"
  },
  {
   "property": "C27",
   "status": "proved",
   "theorems": [
    "Smdiff.C27_round_trip"
   ],
   "note": "inputs shorter than 2^63 bytes, as every Rust slice"
  },
  {
   "property": "C28",
   "status": "proved",
   "theorems": [
    "Smdiff.C28_round_trip_compressed"
   ],
   "note": "zstd/brotli: given libraries that give back what was compressed (Faithful), non-empty targets; the empty target is C77"
  },
  {
   "property": "C29",
   "status": "proved",
   "theorems": [
    "Smdiff.C29_panics_only_for",
    "Smdiff.C29_returns_without_source_matching",
    "Smdiff.C29_returns_without_late_match",
    "Smdiff.C29_short_targets_have_no_late_match",
    "Smdiff.C29_bad_capacity_panics",
    "Smdiff.C29_short_append_panics",
    "Smdiff.C29_huge_window_panics",
    "Smdiff.C29_large_append_panics",
    "Smdiff.C29_never_panics_false",
    "Smdiff.C29_late_match_panics"
   ],
   "note": ""
  },
  {
   "property": "C30",
   "status": "proved",
   "theorems": [
    "Smdiff.C30_terminates",
    "Smdiff.C30_walk_bound_irrelevant",
    "Smdiff.C30_loop_bound_irrelevant",
    "Smdiff.C30_can_run_forever"
   ],
   "note": ""
  },
  {
   "property": "C31",
   "status": "proved",
   "theorems": [
    "Smdiff.C31_candidates_true"
   ],
   "note": ""
  },
  {
   "property": "C32",
   "status": "proved",
   "theorems": [
    "Smdiff.C32_translate"
   ],
   "note": ""
  },
  {
   "property": "C33",
   "status": "proved",
   "theorems": [
    "Smdiff.C33_encoder_output_legal",
    "Smdiff.C33_translate"
   ],
   "note": ""
  },
  {
   "property": "C34",
   "status": "proved",
   "theorems": [
    "Smdiff.C34_run_meaning",
    "Smdiff.C34_run_shape"
   ],
   "note": ""
  },
  {
   "property": "C35",
   "status": "proved",
   "theorems": [
    "Smdiff.C35_section_size"
   ],
   "note": ""
  },
  {
   "property": "C36",
   "status": "proved",
   "theorems": [
    "Smdiff.C36_overhead",
    "Smdiff.C36_large_segments"
   ],
   "note": ""
  },
  {
   "property": "C37",
   "status": "proved",
   "theorems": [
    "Smdiff.C37_target32",
    "Smdiff.C37_checksums",
    "Smdiff.C37_rolling"
   ],
   "note": ""
  },
  {
   "property": "C38",
   "status": "proved",
   "theorems": [
    "Smdiff.C38_source_hash",
    "Smdiff.C38_nine_byte_target_false",
    "Smdiff.C38_target_hash",
    "Smdiff.C38_covers",
    "Smdiff.C38_target_matcher_blind"
   ],
   "note": ""
  },
  {
   "property": "C39",
   "status": "proved",
   "theorems": [
    "Smdiff.C39_table",
    "Smdiff.C39_get_after_insert"
   ],
   "note": ""
  },
  {
   "property": "C40",
   "status": "proved",
   "theorems": [
    "Smdiff.C40_chain_walk"
   ],
   "note": ""
  },
  {
   "property": "C41",
   "status": "proved",
   "theorems": [
    "Smdiff.C41_controlling_iff",
    "Smdiff.C41_none_iff"
   ],
   "note": ""
  },
  {
   "property": "C42",
   "status": "proved",
   "theorems": [
    "Smdiff.C42_exact_slice",
    "Smdiff.C42_total_length"
   ],
   "note": "copies within the 64-bit address space"
  },
  {
   "property": "C43",
   "status": "proved",
   "theorems": [
    "Smdiff.C43_deref",
    "Smdiff.C43_deref_legal"
   ],
   "note": "dictionaries shorter than 2^63 bytes"
  },
  {
   "property": "C44",
   "status": "proved",
   "theorems": [
    "Smdiff.C44_two_patches",
    "Smdiff.C44_not_composable_panics"
   ],
   "note": "patches without zero-length operations (C47_empty_copy_panics shows why); files shorter than 2^63 bytes"
  },
  {
   "property": "C45",
   "status": "proved",
   "theorems": [
    "Smdiff.C45_chain"
   ],
   "note": "as C44"
  },
  {
   "property": "C46",
   "status": "proved",
   "theorems": [
    "Smdiff.C46_summary_no_copies"
   ],
   "note": ""
  },
  {
   "property": "C47",
   "status": "proved",
   "theorems": [
    "Smdiff.C47_new_release",
    "Smdiff.C47_new_debug",
    "Smdiff.C47_as_stated_false",
    "Smdiff.C47_empty_copy_panics"
   ],
   "note": ""
  },
  {
   "property": "C48",
   "status": "proved",
   "theorems": [
    "Smdiff.C48_written_summary"
   ],
   "note": "as C44"
  },
  {
   "property": "C49",
   "status": "proved",
   "theorems": [
    "Smdiff.C49_statistics",
    "Smdiff.C49_as_stated_false"
   ],
   "note": ""
  },
  {
   "property": "C50",
   "status": "proved",
   "theorems": [
    "Smdiff.C50_extract_ops",
    "Smdiff.C50_extract_ok",
    "Smdiff.C50_extract_of_apply"
   ],
   "note": ""
  },
  {
   "property": "C51",
   "status": "proved",
   "theorems": [
    "Smdiff.C51_optimize_meaning",
    "Smdiff.C51_transcode_preserves"
   ],
   "note": "zstd and brotli under the assumption CompWorks (Faithful libraries, non-empty file)"
  },
  {
   "property": "C52",
   "status": "proved",
   "theorems": [
    "Smdiff.C52_optimize_ops",
    "Smdiff.C52_transcoded_ops"
   ],
   "note": ""
  },
  {
   "property": "C53",
   "status": "proved",
   "theorems": [
    "Smdiff.C53_no_operations_panics",
    "Smdiff.C53_empty_target_panics",
    "Smdiff.C53_transcode_ok",
    "Smdiff.C53_unreadable"
   ],
   "note": ""
  },
  {
   "property": "C54",
   "status": "proved",
   "theorems": [
    "Smdiff.C54_conversion_preserves",
    "Smdiff.C54_conversion_format",
    "Smdiff.C54_parser_error"
   ],
   "note": "the VCDIFF parser (an external crate) is represented by the messages it delivers; that it classifies copies correctly is part of well-formedness"
  },
  {
   "property": "C55",
   "status": "proved",
   "theorems": [
    "Smdiff.C55_long_sequences",
    "Smdiff.C55_zero_period_diverges"
   ],
   "note": "as C54"
  },
  {
   "property": "C56",
   "status": "proved",
   "theorems": [
    "Smdiff.C56_ranger",
    "Smdiff.C56_levels"
   ],
   "note": ""
  },
  {
   "property": "C57",
   "status": "proved",
   "theorems": [
    "Smdiff.C57_stored_positions",
    "Smdiff.C57_default_window"
   ],
   "note": ""
  },
  {
   "property": "C58",
   "status": "proved",
   "theorems": [
    "Smdiff.C58_empty_target",
    "Smdiff.C58_empty_applies"
   ],
   "note": ""
  },
  {
   "property": "C59",
   "status": "proved",
   "theorems": [
    "Smdiff.C59_failing_writer_header",
    "Smdiff.C59_failing_writer_ops",
    "Smdiff.C59_failing_writer_section"
   ],
   "note": ""
  },
  {
   "property": "C60",
   "status": "proved",
   "theorems": [
    "Smdiff.C60_unknown_algo_accepted",
    "Smdiff.C60_unknown_algo_rejected_false"
   ],
   "note": ""
  },
  {
   "property": "C61",
   "status": "proved",
   "theorems": [
    "Smdiff.C61_op_byte_layout",
    "Smdiff.C61_published_layout_false"
   ],
   "note": ""
  },
  {
   "property": "C62",
   "status": "proved",
   "theorems": [
    "Smdiff.C62_size_overhead",
    "Smdiff.C62_size_form_lengths",
    "Smdiff.C62_one_byte_size_false"
   ],
   "note": ""
  },
  {
   "property": "C63",
   "status": "proved",
   "theorems": [
    "Smdiff.C63_oversized_add_corrupts"
   ],
   "note": ""
  },
  {
   "property": "C64",
   "status": "proved",
   "theorems": [
    "Smdiff.C64_encode_format",
    "Smdiff.C64_transcode_format",
    "Smdiff.C64_summary_format"
   ],
   "note": "zstd and brotli: given libraries that give back what was compressed (Faithful), non-empty files"
  },
  {
   "property": "C65",
   "status": "proved",
   "theorems": [
    "Smdiff.C65_merge_versions"
   ],
   "note": "files shorter than 2^63 bytes; zstd and brotli under the assumption CompWorks"
  },
  {
   "property": "C66",
   "status": "proved",
   "theorems": [
    "Smdiff.C66_transcode_encoded"
   ],
   "note": "as C65"
  },
  {
   "property": "C67",
   "status": "proved",
   "theorems": [
    "Smdiff.C67_only_ranges_read",
    "Smdiff.C67_longer_dictionary"
   ],
   "note": ""
  },
  {
   "property": "C68",
   "status": "proved",
   "theorems": [
    "Smdiff.C68_expansion",
    "Smdiff.C68_sharp",
    "Smdiff.C68_without_libraries"
   ],
   "note": ""
  },
  {
   "property": "C69",
   "status": "proved",
   "theorems": [
    "Smdiff.C69_transcode_section_size",
    "Smdiff.C69_summary_section_size",
    "Smdiff.C69_conversion_section_size"
   ],
   "note": "as C51, C48, C54"
  },
  {
   "property": "C70",
   "status": "proved",
   "theorems": [
    "Smdiff.C70_built_headers",
    "Smdiff.C70_unchecked_identifier"
   ],
   "note": ""
  },
  {
   "property": "C71",
   "status": "proved",
   "theorems": [
    "Smdiff.C71_prefix_only_copies",
    "Smdiff.C71_prefix_size"
   ],
   "note": "target or its prefix only; general common prefixes are not claimed"
  },
  {
   "property": "C72",
   "status": "proved",
   "theorems": [
    "Smdiff.C72_failing_writer_encode",
    "Smdiff.C72_failing_writer_merged",
    "Smdiff.C72_failing_writer_transcode",
    "Smdiff.C72_failing_writer_convert"
   ],
   "note": ""
  },
  {
   "property": "C73",
   "status": "proved",
   "theorems": [
    "Smdiff.C73_cut_off",
    "Smdiff.C73_encoded_patch",
    "Smdiff.C73_failed_encode",
    "Smdiff.C73_merged_patch",
    "Smdiff.C73_transcoded_patch",
    "Smdiff.C73_converted_patch"
   ],
   "note": "libraries: assumption Framed (and Faithful for encode)"
  },
  {
   "property": "C74",
   "status": "proved",
   "theorems": [
    "Smdiff.C74_encode",
    "Smdiff.C74_encode_same_patch",
    "Smdiff.C74_section",
    "Smdiff.C74_apply",
    "Smdiff.C74_merger_new",
    "Smdiff.C74_merge",
    "Smdiff.C74_merge_chain",
    "Smdiff.C74_summary_write",
    "Smdiff.C74_transcode",
    "Smdiff.C74_convert"
   ],
   "note": ""
  },
  {
   "property": "C75",
   "status": "proved",
   "theorems": [
    "Smdiff.C75_failing_devices",
    "Smdiff.C75_ok_is_complete",
    "Smdiff.C75_prefix",
    "Smdiff.C75_fault_stops",
    "Smdiff.C75_no_fault"
   ],
   "note": ""
  },
  {
   "property": "C76",
   "status": "proved",
   "theorems": [
    "Smdiff.C76_plain_size",
    "Smdiff.C76_smdiff_size",
    "Smdiff.C76_section_count"
   ],
   "note": "files shorter than 2^63 bytes; for zstd and brotli only the count of sections"
  },
  {
   "property": "C77",
   "status": "proved",
   "theorems": [
    "Smdiff.C77_empty_target_written",
    "Smdiff.C77_empty_target_applied",
    "Smdiff.C77_empty_round_trip",
    "Smdiff.C77_not_settled_by_faithfulness"
   ],
   "note": ""
  },
  {
   "property": "C78",
   "status": "proved",
   "theorems": [
    "Smdiff.C78_read_section_appends",
    "Smdiff.C78_iterator_history",
    "Smdiff.C78_decoder_iterator_history",
    "Smdiff.C78_section_writer_empty",
    "Smdiff.C78_shared_buffer",
    "Smdiff.C78_section_writer_stale",
    "Smdiff.C78_failed_call_poisons_buffer"
   ],
   "note": ""
  },
  {
   "property": "C79",
   "status": "proved",
   "theorems": [
    "Smdiff.C79_last_setter_wins",
    "Smdiff.C79_comp_level",
    "Smdiff.C79_default_is_level_3",
    "Smdiff.C79_lazy_default",
    "Smdiff.C79_lazy_off",
    "Smdiff.C79_segment_clamped",
    "Smdiff.C79_step_zero",
    "Smdiff.C79_window_default",
    "Smdiff.C79_window_rounded",
    "Smdiff.C79_window_irrelevant",
    "Smdiff.C79_no_matching",
    "Smdiff.C79_naive_irrelevant",
    "Smdiff.C79_chain_default",
    "Smdiff.C79_lazy_default_is_not_45"
   ],
   "note": ""
  },
  {
   "property": "C80",
   "status": "proved",
   "theorems": [
    "Smdiff.C80_reads_from_position",
    "Smdiff.C80_reads_without_dict",
    "Smdiff.C80_second_call_is_empty",
    "Smdiff.C80_broken_dict",
    "Smdiff.C80_broken_target",
    "Smdiff.C80_apply_any_position",
    "Smdiff.C80_round_trip",
    "Smdiff.C80_moved_dict_breaks_round_trip"
   ],
   "note": ""
  },
  {
   "property": "C81",
   "status": "proved",
   "theorems": [
    "Smdiff.C81_append",
    "Smdiff.C81_common_start",
    "Smdiff.C81_prepend"
   ],
   "note": "A common beginning shorter than lazy_escape_len is covered by C76 (13 bytes for each byte of the target)."
  },
  {
   "property": "C82",
   "status": "proved",
   "theorems": [
    "Smdiff.C82_failing_reader",
    "Smdiff.C82_any_reader",
    "Smdiff.C82_any_reader_cursor",
    "Smdiff.C82_failure_behind",
    "Smdiff.C82_failure_inside",
    "Smdiff.C82_read_section",
    "Smdiff.C82_read_parts"
   ],
   "note": "Compressed sections: the libraries are parameters (CodecOn) that are assumed to depend only on the bytes of the source (Follow)."
  },
  {
   "property": "C83",
   "status": "proved",
   "theorems": [
    "Smdiff.C83_into_inner",
    "Smdiff.C83_decoder_reads_ahead"
   ],
   "note": ""
  },
  {
   "property": "C84",
   "status": "proved",
   "theorems": [
    "Smdiff.C84_any_writer",
    "Smdiff.C84_patient_writer",
    "Smdiff.C84_buffered_writer",
    "Smdiff.C84_flush",
    "Smdiff.C84_written_and_flushed",
    "Smdiff.C84_ok_before_written",
    "Smdiff.C84_encode_all_or_nothing"
   ],
   "note": "zstd and brotli: their output is written in one piece; that is no restriction here, because nothing depends on the pieces."
  },
  {
   "property": "C85",
   "status": "proved",
   "theorems": [
    "Smdiff.C85_any_reader",
    "Smdiff.C85_failing_dict",
    "Smdiff.C85_failing_target",
    "Smdiff.C85_round_trip"
   ],
   "note": ""
  },
  {
   "property": "C86",
   "status": "proved",
   "theorems": [
    "Smdiff.C86_enough",
    "Smdiff.C86_same_or_ends",
    "Smdiff.C86_section_ends_iff",
    "Smdiff.C86_next_ends_iff",
    "Smdiff.C86_buffer_fits",
    "Smdiff.C86_readable",
    "Smdiff.C86_uncompressed",
    "Smdiff.C86_round_trip",
    "Smdiff.C86_seven_bytes_end_it"
   ],
   "note": "the bytes of adds (at most 65535 for one operation), decompressed data and the libraries are not limited"
  },
  {
   "property": "C87",
   "status": "proved",
   "theorems": [
    "Smdiff.C87_none_only_after_last",
    "Smdiff.C87_cut_off_never_ends",
    "Smdiff.C87_cut_off_never_ends_decoder",
    "Smdiff.C87_files_last"
   ],
   "note": "first part: also compressed patches; cut-off patches: sections without compression"
  },
  {
   "property": "C88",
   "status": "proved",
   "theorems": [
    "Smdiff.C88_origins",
    "Smdiff.C88_bytes_carried",
    "Smdiff.C88_source_needed"
   ],
   "note": ""
  },
  {
   "property": "C89",
   "status": "proved",
   "theorems": [
    "Smdiff.C89_pieces",
    "Smdiff.C89_determined",
    "Smdiff.C89_at_most_bytes",
    "Smdiff.C89_multiplies"
   ],
   "note": ""
  },
  {
   "property": "C90",
   "status": "proved",
   "theorems": [
    "Smdiff.C90_pairwise",
    "Smdiff.C90_at_least_half",
    "Smdiff.C90_adds_halved",
    "Smdiff.C90_left_alone",
    "Smdiff.C90_not_idempotent",
    "Smdiff.C90_settles"
   ],
   "note": ""
  },
  {
   "property": "C91",
   "status": "proved",
   "theorems": [
    "Smdiff.C91_any_grouping"
   ],
   "note": ""
  },
  {
   "property": "C92",
   "status": "proved",
   "theorems": [
    "Smdiff.C92_interchangeable",
    "Smdiff.C92_chain",
    "Smdiff.C92_encode",
    "Smdiff.C92_summary",
    "Smdiff.C92_transcode"
   ],
   "note": ""
  },
  {
   "property": "C93",
   "status": "proved",
   "theorems": [
    "Smdiff.C93_rounded_down",
    "Smdiff.C93_exact",
    "Smdiff.C93_nothing_in_common",
    "Smdiff.C93_short_source",
    "Smdiff.C93_first_found"
   ],
   "note": "sources larger than the window, for which the table is refilled while the search goes on, are covered by C95 (and C57)"
  },
  {
   "property": "C94",
   "status": "proved",
   "theorems": [
    "Smdiff.C94_exact",
    "Smdiff.C94_covers",
    "Smdiff.C94_passed",
    "Smdiff.C94_found",
    "Smdiff.C94_blind",
    "Smdiff.C94_no_copies",
    "Smdiff.C94_only_adds",
    "Smdiff.C94_smdiff_larger"
   ],
   "note": "searches that begin behind the first byte, after a naive match at the start, are covered by C37-C40, C56 only"
  },
  {
   "property": "C95",
   "status": "proved",
   "theorems": [
    "Smdiff.C95_exact",
    "Smdiff.C95_found",
    "Smdiff.C95_covers",
    "Smdiff.C95_few_windows",
    "Smdiff.C95_only_first",
    "Smdiff.C95_short_target",
    "Smdiff.C95_never_slides"
   ],
   "note": "products of the lengths of 2^64 and more (a debug panic, see C29) are left out"
  },
  {
   "property": "C96",
   "status": "proved",
   "theorems": [
    "Smdiff.C96_one_byte",
    "Smdiff.C96_one_byte_size",
    "Smdiff.C96_long_runs_not_stored",
    "Smdiff.C96_runs_not_stored"
   ],
   "note": "the margins 6 and 44 are what the filter of the op maker may cut; not shown to be the smallest"
  },
  {
   "property": "C97",
   "status": "proved",
   "theorems": [
    "Smdiff.C97_not_in_source",
    "Smdiff.C97_no_piece"
   ],
   "note": "sources larger than the window are left out"
  },
  {
   "property": "C98",
   "status": "proved",
   "theorems": [
    "Smdiff.C98_not_stored_twice"
   ],
   "note": "the margins 6 and 44 are those of C96"
  },
  {
   "property": "C99",
   "status": "proved",
   "theorems": [
    "Smdiff.C99_common_end",
    "Smdiff.C99_one_edit"
   ],
   "note": ""
  },
  {
   "property": "C100",
   "status": "proved",
   "theorems": [
    "Smdiff.C100_edits"
   ],
   "note": ""
  },
  {
   "property": "C101",
   "status": "proved",
   "theorems": [
    "Smdiff.C101_encode",
    "Smdiff.C101_summary",
    "Smdiff.C101_transcode",
    "Smdiff.C101_can_grow"
   ],
   "note": ""
  },
  {
   "property": "C102",
   "status": "proved",
   "theorems": [
    "Smdiff.C102_operations",
    "Smdiff.C102_size",
    "Smdiff.C102_files"
   ],
   "note": ""
  },
  {
   "property": "C103",
   "status": "proved",
   "theorems": [
    "Smdiff.C103_no_target_matching",
    "Smdiff.C103_no_output_copies",
    "Smdiff.C103_no_source_matching",
    "Smdiff.C103_long_runs_are_copied",
    "Smdiff.C103_naive_needs_source"
   ],
   "note": ""
  },
  {
   "property": "C104",
   "status": "proved",
   "theorems": [
    "Smdiff.C104_operations",
    "Smdiff.C104_size",
    "Smdiff.C104_at_least",
    "Smdiff.C104_blow_up",
    "Smdiff.C104_step",
    "Smdiff.C104_transcodes"
   ],
   "note": ""
  },
  {
   "property": "C105",
   "status": "proved",
   "theorems": [
    "Smdiff.C105_new",
    "Smdiff.C105_merge",
    "Smdiff.C105_unreadable",
    "Smdiff.C105_two",
    "Smdiff.C105_misfit_can_hide"
   ],
   "note": ""
  },
  {
   "property": "C106",
   "status": "proved",
   "theorems": [
    "Smdiff.C106_adds",
    "Smdiff.C106_encode",
    "Smdiff.C106_merged",
    "Smdiff.C106_not_always"
   ],
   "note": ""
  },
  {
   "property": "C107",
   "status": "proved",
   "theorems": [
    "Smdiff.C107_reading_ends",
    "Smdiff.C107_merger_new_ends",
    "Smdiff.C107_merge_ends",
    "Smdiff.C107_chain_ends",
    "Smdiff.C107_release_transcodes",
    "Smdiff.C107_transcoding_ends",
    "Smdiff.C107_converting_ends",
    "Smdiff.C107_far_patch"
   ],
   "note": ""
  },
  {
   "property": "C108",
   "status": "proved",
   "theorems": [
    "Smdiff.C108_applies",
    "Smdiff.C108_unique",
    "Smdiff.C108_transcodes",
    "Smdiff.C108_merges"
   ],
   "note": ""
  },
  {
   "property": "C109",
   "status": "proved",
   "theorems": [
    "Smdiff.C109_recipe",
    "Smdiff.C109_recipe_unique",
    "Smdiff.C109_no_check",
    "Smdiff.C109_wrong_source",
    "Smdiff.C109_encoded",
    "Smdiff.C109_made",
    "Smdiff.C109_chain"
   ],
   "note": ""
  },
  {
   "property": "C110",
   "status": "proved",
   "theorems": [
    "Smdiff.C110_interleaved",
    "Smdiff.C110_too_large",
    "Smdiff.C110_segregated_refused",
    "Smdiff.C110_section_back",
    "Smdiff.C110_patch_back",
    "Smdiff.C110_as_delivered_false"
   ],
   "note": ""
  },
  {
   "property": "C111",
   "status": "proved",
   "theorems": [
    "Smdiff.C111_stored_byte",
    "Smdiff.C111_written",
    "Smdiff.C111_encoded",
    "Smdiff.C111_from_nothing"
   ],
   "note": ""
  },
  {
   "property": "C112",
   "status": "proved",
   "theorems": [
    "Smdiff.C112_guard",
    "Smdiff.C112_header",
    "Smdiff.C112_lengths",
    "Smdiff.C112_patch"
   ],
   "note": ""
  },
  {
   "property": "C113",
   "status": "proved",
   "theorems": [
    "Smdiff.C113_join",
    "Smdiff.C113_meaning",
    "Smdiff.C113_apply",
    "Smdiff.C113_pieces",
    "Smdiff.C113_runs_break",
    "Smdiff.C113_pieces_compressed"
   ],
   "note": "Fails with long runs: `C113_runs_break`."
  },
  {
   "property": "C114",
   "status": "proved",
   "theorems": [
    "Smdiff.C114_kept",
    "Smdiff.C114_lost",
    "Smdiff.C114_piece",
    "Smdiff.C114_default"
   ],
   "note": "Source fits into the window; l_step of at least 9 for what is lost."
  },
  {
   "property": "C115",
   "status": "proved",
   "theorems": [
    "Smdiff.C115_first",
    "Smdiff.C115_parts",
    "Smdiff.C115_prefix",
    "Smdiff.C115_encoded",
    "Smdiff.C115_needs_output",
    "Smdiff.C115_compressed",
    "Smdiff.C115_left_open"
   ],
   "note": "Cuts behind later sections and selections: uncompressed patches, and patches written by encode with a faithful library (of other compressed patches, only the first section: a library may look ahead)."
  },
  {
   "property": "C116",
   "status": "proved",
   "theorems": [
    "Smdiff.C116_make_sections",
    "Smdiff.C116_larger_limit",
    "Smdiff.C116_encode",
    "Smdiff.C116_larger_segments",
    "Smdiff.C116_transcode",
    "Smdiff.C116_summary",
    "Smdiff.C116_convert"
   ],
   "note": ""
  },
  {
   "property": "C117",
   "status": "proved",
   "theorems": [
    "Smdiff.C117_prefix",
    "Smdiff.C117_no_matchers",
    "Smdiff.C117_transcode",
    "Smdiff.C117_near_best"
   ],
   "note": "The byte bound is for patches without secondary compression, ours and the rival's."
  }
 ]
}