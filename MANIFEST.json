{
 "claims": [
  {
   "property": "C01",
   "status": "partial",
   "theorems": [
    "Ribzip2.C01_refuted",
    "Ribzip2.C01_round_trip_partial",
    "Ribzip2.C01_round_trip_small_partial",
    "Ribzip2.C01_round_trip_terminated_partial",
    "Ribzip2.C01_round_trip_fresh_last_partial",
    "Ribzip2.C01_round_trip_marked_partial",
    "Ribzip2.C01_round_trip_unique_min_partial",
    "Ribzip2.C01_round_trip_iff_partial",
    "Ribzip2.C01_round_trip_iff_no_runs_partial",
    "Ribzip2.C01_round_trip_iff_small_partial",
    "Ribzip2.C01_refuted_text_blocks",
    "Ribzip2.C01_refuted_text_files"
   ],
   "note": "False as stated (C01_refuted: the text 'A.\\n\\nB.\\n'). Proved for every input whose blocks are safe for the transform and free of count collisions, with classes of inputs recognisable at sight: the last byte occurs nowhere else (_fresh_last; with long runs, if that byte is at least 252: _marked), the smallest byte occurs only once (_unique_min), zero-terminated strings (_terminated). C01_round_trip_iff_partial: exact condition for single blocks that are safe for the transform. C01_round_trip_iff_no_runs_partial: exact condition for all inputs without four equal bytes in a row, of any length (C46_outcome: exactly what comes back from any input); C01_round_trip_iff_small_partial: exact condition for every input of one block, whatever it contains; C01_refuted_text_files, C01_refuted_text_blocks: a wide class of inputs that do not come back (texts whose last line ends in the same byte as another line, if the line behind that one begins with a smaller byte than the file, e.g. most source files with a blank line behind a '}')."
  },
  {
   "property": "C02",
   "status": "proved",
   "theorems": [
    "Ribzip2.C02_every_schedule_is_sequential",
    "Ribzip2.C02_every_schedule_is_encodeStream",
    "Ribzip2.C02_same_output",
    "Ribzip2.C02_same_output_after_errors",
    "Ribzip2.C02_blocks_in_order",
    "Ribzip2.C02_single_always_succeeds"
   ],
   "note": ""
  },
  {
   "property": "C03",
   "status": "proved",
   "theorems": [
    "Ribzip2.C03_no_deadlock",
    "Ribzip2.C03_terminates",
    "Ribzip2.C03_the_end_is_reached"
   ],
   "note": ""
  },
  {
   "property": "C04",
   "status": "proved",
   "theorems": [
    "Ribzip2.C04_independent_of_read_sizes",
    "Ribzip2.C04_same_as_from_memory"
   ],
   "note": ""
  },
  {
   "property": "C05",
   "status": "partial",
   "theorems": [
    "Ribzip2.C05_loss_per_error_partial",
    "Ribzip2.C05_loss_amount",
    "Ribzip2.C05_refuted_everything_lost",
    "Ribzip2.C05_refuted",
    "Ribzip2.C05_persistent_error_partial",
    "Ribzip2.C05_no_error_partial"
   ],
   "note": "False as stated (C05_refuted): an error that follows delivered data in the same refill drops that data and the call ends normally. The extent of the failure is proved exactly: what is compressed is the input with, for each error, at most the 719999 bytes delivered directly before it left out (C05_loss_per_error_partial, C05_loss_amount), and any input below 720000 bytes is lost entirely by a single transient error at its end while the call returns Ok (C05_refuted_everything_lost). Without errors nothing is omitted, and a persistent error never leads to a normal end."
  },
  {
   "property": "C06",
   "status": "proved",
   "theorems": [
    "Ribzip2.C06_container_layout"
   ],
   "note": ""
  },
  {
   "property": "C07",
   "status": "partial",
   "theorems": [
    "Ribzip2.C07_refuted_in_stream",
    "Ribzip2.C07_refuted",
    "Ribzip2.C07_block_size_bound_partial"
   ],
   "note": "False as stated (C07_refuted, C07_refuted_in_stream: a block of 900005 bytes). Proved: 900005 is an upper bound for every reader, strategy and thread count."
  },
  {
   "property": "C08",
   "status": "proved",
   "theorems": [
    "Ribzip2.C08_blocks_are_the_input"
   ],
   "note": ""
  },
  {
   "property": "C09",
   "status": "partial",
   "theorems": [
    "Ribzip2.C09_refuted",
    "Ribzip2.C09_inverse_rle_partial",
    "Ribzip2.C09_comes_back_iff_partial",
    "Ribzip2.C09_inverse_rle_no_runs_partial"
   ],
   "note": "False as stated (C09_refuted, witness 1,1,1,1,0,0,0,5): inverse_rle takes a repeat count for a data byte. Proved for all inputs without a count/byte collision; C09_comes_back_iff_partial: exactly those come back (for inputs without 255 bytes 251 in a row)."
  },
  {
   "property": "C10",
   "status": "proved",
   "theorems": [
    "Ribzip2.C10_rle_is_standard",
    "Ribzip2.C10_rle_independent_of_refills",
    "Ribzip2.C10_standard_decoder_inverts",
    "Ribzip2.C10_total_size_exact"
   ],
   "note": ""
  },
  {
   "property": "C11",
   "status": "proved",
   "theorems": [
    "Ribzip2.C11_crc_is_bzip2_crc"
   ],
   "note": ""
  },
  {
   "property": "C12",
   "status": "proved",
   "theorems": [
    "Ribzip2.C12_crc_detects_four_byte_bursts",
    "Ribzip2.C12_crc_detects_32_bit_bursts",
    "Ribzip2.C12_crc_detects_two_flipped_bits",
    "Ribzip2.C12_two_flips_far_apart"
   ],
   "note": ""
  },
  {
   "property": "C13",
   "status": "proved",
   "theorems": [
    "Ribzip2.C13_written_blocks_have_the_stored_crc",
    "Ribzip2.C13_wrong_crc_is_rejected"
   ],
   "note": ""
  },
  {
   "property": "C14",
   "status": "partial",
   "theorems": [
    "Ribzip2.C14_refuted",
    "Ribzip2.C14_footer_crc_is_ignored"
   ],
   "note": "False: the footer CRC is never read (C14_refuted; C14_footer_crc_is_ignored shows the result is independent of it)."
  },
  {
   "property": "C15",
   "status": "proved",
   "theorems": [
    "Ribzip2.C15_ok_on_prefix_is_ok_on_whole"
   ],
   "note": ""
  },
  {
   "property": "C16",
   "status": "proved",
   "theorems": [
    "Ribzip2.C16_output_on_prefix_is_prefix"
   ],
   "note": ""
  },
  {
   "property": "C17",
   "status": "partial",
   "theorems": [
    "Ribzip2.C17_refuted",
    "Ribzip2.C17_panic_only_inside_a_block_partial",
    "Ribzip2.C17_wellformed_bodies_never_panic_partial"
   ],
   "note": "False (C17_refuted): malformed blocks panic. Proved: a panic can only happen inside a block, after its magic; and if the block bodies are well-formed, no damage to the level byte, the checksums, or anything from the end of the last block on makes it panic."
  },
  {
   "property": "C18",
   "status": "proved",
   "theorems": [
    "Ribzip2.C18_decode_terminates"
   ],
   "note": ""
  },
  {
   "property": "C19",
   "status": "partial",
   "theorems": [
    "Ribzip2.C19_refuted",
    "Ribzip2.C19_trailing_data_is_ignored"
   ],
   "note": "False (C19_refuted): everything after the first footer is ignored (C19_trailing_data_is_ignored)."
  },
  {
   "property": "C20",
   "status": "proved",
   "theorems": [
    "Ribzip2.C20_mtf_roundtrip",
    "Ribzip2.C20_mtf_is_standard"
   ],
   "note": ""
  },
  {
   "property": "C21",
   "status": "proved",
   "theorems": [
    "Ribzip2.C21_zle_roundtrip",
    "Ribzip2.C21_zle_is_standard"
   ],
   "note": ""
  },
  {
   "property": "C22",
   "status": "proved",
   "theorems": [
    "Ribzip2.C22_symbol_map_roundtrip",
    "Ribzip2.C22_symbol_map_is_standard"
   ],
   "note": ""
  },
  {
   "property": "C23",
   "status": "proved",
   "theorems": [
    "Ribzip2.C23_lengths_complete_prefix_code",
    "Ribzip2.C23_lengths_are_leaf_depths",
    "Ribzip2.C23_encoder_codes"
   ],
   "note": ""
  },
  {
   "property": "C24",
   "status": "proved",
   "theorems": [
    "Ribzip2.C24_lengths_optimal",
    "Ribzip2.C24_no_ties"
   ],
   "note": ""
  },
  {
   "property": "C25",
   "status": "proved",
   "theorems": [
    "Ribzip2.C25_canonical_codes",
    "Ribzip2.C25_codes_prefix_free",
    "Ribzip2.C25_full_group_decodes",
    "Ribzip2.C25_last_group_decodes"
   ],
   "note": ""
  },
  {
   "property": "C26",
   "status": "proved",
   "theorems": [
    "Ribzip2.C26_code_lengths_roundtrip",
    "Ribzip2.C26_code_lengths_are_standard",
    "Ribzip2.C26_any_transmission_is_read"
   ],
   "note": ""
  },
  {
   "property": "C27",
   "status": "partial",
   "theorems": [
    "Ribzip2.C27_selectors_roundtrip_iff_no_gap",
    "Ribzip2.C27_refuted",
    "Ribzip2.C27_selectors_roundtrip_partial"
   ],
   "note": "False as stated (C27_refuted). The exact extent is proved: selectors come back iff the used tables are 0..k-1 without a gap."
  },
  {
   "property": "C28",
   "status": "partial",
   "theorems": [
    "Ribzip2.C28_selector_count",
    "Ribzip2.C28_round_trip_partial",
    "Ribzip2.C28_round_trip_no_iterations_partial",
    "Ribzip2.C28_round_trip_short_partial",
    "Ribzip2.C28_refuted_gap",
    "Ribzip2.C28_refuted_panic",
    "Ribzip2.C28_refuted_extra_selector",
    "Ribzip2.C28_refuted_multiple_of_50",
    "Ribzip2.C28_comes_back_iff_partial"
   ],
   "note": "False as stated (C28_refuted_gap, C28_refuted_panic: default CLI parameters 6 tables / 3 iterations; C28_refuted_extra_selector). Proved when the selectors have no gap and the symbol count is not a multiple of 50, for every distance; unconditionally in those respects for inputs of at most 48 bytes. For inputs of one block without a gap the condition is exact (C28_comes_back_iff_partial); with a multiple of 50 symbols in the last block the output is never accepted (C28_refuted_multiple_of_50)."
  },
  {
   "property": "C29",
   "status": "partial",
   "theorems": [
    "Ribzip2.C29_zero_tables_partial",
    "Ribzip2.C29_refuted",
    "Ribzip2.C29_rejected_iff_zero",
    "Ribzip2.C29_refuted_one_and_seven"
   ],
   "note": "False (C29_refuted: 8 tables write a stream on which the decoder panics). Proved: 0 tables always panic on non-empty input; 1 to 7 tables are C28. C29_rejected_iff_zero: exactly 0 is rejected, for every input; C29_refuted_one_and_seven: with 1 or 7 tables the output is never a valid bzip2 stream, for every input."
  },
  {
   "property": "C30",
   "status": "partial",
   "theorems": [
    "Ribzip2.C30_bwt_never_fails",
    "Ribzip2.C30_refuted",
    "Ribzip2.C30_bwt_partial",
    "Ribzip2.C30_safe_iff",
    "Ribzip2.C30_bwt_iff_safe_partial",
    "Ribzip2.C30_unique_byte_partial",
    "Ribzip2.C30_refuted_widely"
   ],
   "note": "False as stated (C30_refuted, the bytes of 'baaa'). Proved: never fails and permutes the block for every non-empty input; the exact transform for the safe blocks and for no others (C30_bwt_iff_safe_partial: the code's transform is the sorted-rotation transform iff suffix order and rotation order agree after rotating); C30_safe_iff gives TransformSafe as an explicit condition on the string. C30_refuted_widely: a wide class of blocks whose transform the decoder's inverse does not undo."
  },
  {
   "property": "C31",
   "status": "proved",
   "theorems": [
    "Ribzip2.C31_inverse_bwt",
    "Ribzip2.C31_transform_exists"
   ],
   "note": ""
  },
  {
   "property": "C32",
   "status": "proved",
   "theorems": [
    "Ribzip2.C32_suffix_array",
    "Ribzip2.C32_suffix_array_unique"
   ],
   "note": ""
  },
  {
   "property": "C33",
   "status": "partial",
   "theorems": [
    "Ribzip2.C33_rotates_to_smallest_suffix",
    "Ribzip2.C33_refuted",
    "Ribzip2.C33_rotation_minimal_partial",
    "Ribzip2.C33_minimal_iff_partial"
   ],
   "note": "False as stated (C33_refuted, witness the bytes of 'baaa'): the rotation starts at the smallest suffix of the string, which is proved exactly (C33_rotates_to_smallest_suffix); it is the minimal rotation iff it is not larger than the rotations to the other occurrences of that suffix (C33_minimal_iff_partial), in particular when there are none (C33_rotation_minimal_partial)."
  },
  {
   "property": "C34",
   "status": "partial",
   "theorems": [
    "Ribzip2.C34_valid_streams_decode_partial",
    "Ribzip2.C34_refuted_extra_selector",
    "Ribzip2.C34_refuted_repeat_count",
    "Ribzip2.C34_decodes_iff_partial"
   ],
   "note": "False as stated (C34_refuted_extra_selector, C34_refuted_repeat_count). Proved for every valid stream without surplus selectors and without a repeat count followed by three equal bytes. C34_decodes_iff_partial: the exact condition for all valid streams of one block."
  },
  {
   "property": "C35",
   "status": "partial",
   "theorems": [
    "Ribzip2.C35_kmeans_valid_partial",
    "Ribzip2.C35_output_valid_partial",
    "Ribzip2.C35_output_valid_small_partial",
    "Ribzip2.C35_refuted",
    "Ribzip2.C35_refuted_text_files",
    "Ribzip2.C35_refuted_despite_round_trip",
    "Ribzip2.C35_valid_iff_safe_partial"
   ],
   "note": "False as stated (C35_refuted: the output for 'baaa' is not a valid stream for any content). Proved for inputs whose blocks are safe for the transform and at most 900000 bytes long; for one-block inputs without extreme runs safety is proved to be exactly the condition (C35_valid_iff_safe_partial). C35_refuted_text_files: a wide class of texts for which the output is invalid. C35_refuted_despite_round_trip: an invalid output that this library itself reads back."
  },
  {
   "property": "C36",
   "status": "partial",
   "theorems": [
    "Ribzip2.C36_refuted",
    "Ribzip2.C36_refuted_short_write",
    "Ribzip2.C36_output_complete_partial",
    "Ribzip2.C36_every_writer"
   ],
   "note": "False (C36_refuted): a short write loses data. Proved for writers that accept whole buffers. C36_every_writer: for every writer whatever it does, exactly what arrives and the result, and exactly when everything arrives."
  },
  {
   "property": "C37",
   "status": "partial",
   "theorems": [
    "Ribzip2.C37_refuted",
    "Ribzip2.C37_output_complete_partial",
    "Ribzip2.C37_write_error",
    "Ribzip2.C37_every_writer",
    "Ribzip2.C37_complete_iff"
   ],
   "note": "False as stated (C37_refuted): Ok(0) from the writer loses a byte. Proved for every writer that never answers Ok(0). C37_every_writer / C37_complete_iff: for every writer exactly what arrives, what is returned, and exactly when nothing is lost."
  },
  {
   "property": "C38",
   "status": "proved",
   "theorems": [
    "Ribzip2.C38_written_bits",
    "Ribzip2.C38_read_bits",
    "Ribzip2.C38_bits_roundtrip"
   ],
   "note": ""
  },
  {
   "property": "C39",
   "status": "proved",
   "theorems": [
    "Ribzip2.C39_never_panics",
    "Ribzip2.C39_always_succeeds"
   ],
   "note": ""
  },
  {
   "property": "C40",
   "status": "proved",
   "theorems": [
    "Ribzip2.C40_wrong_magic_rejected"
   ],
   "note": ""
  },
  {
   "property": "C41",
   "status": "proved",
   "theorems": [
    "Ribzip2.C41_names_round_trip",
    "Ribzip2.C41_names_injective",
    "Ribzip2.C41_decompress_name"
   ],
   "note": ""
  },
  {
   "property": "C42",
   "status": "partial",
   "theorems": [
    "Ribzip2.C42_refuted",
    "Ribzip2.C42_never_overwrites_partial",
    "Ribzip2.C42_one_file_at_most",
    "Ribzip2.C42_existing_files_unchanged"
   ],
   "note": "False as stated (C42_refuted): exists() and File::create are two steps, a file renamed to the output path in between is truncated. Proved: without that race only files created by the program are touched, whatever other processes do; and with no other process every existing file keeps its content."
  },
  {
   "property": "C43",
   "status": "partial",
   "theorems": [
    "Ribzip2.C43_refuted_every_small_file",
    "Ribzip2.C43_refuted",
    "Ribzip2.C43_success_means_complete_partial",
    "Ribzip2.C43_output_is_a_prefix"
   ],
   "note": "False (C43_refuted_every_small_file): BufWriter is dropped without flush(), so a failing last write is ignored; every stream of at most 8192 bytes is lost with status 0. Proved: complete if no write fails; at most the last 8192 bytes missing in general; always a prefix."
  },
  {
   "property": "C44",
   "status": "proved",
   "theorems": [
    "Ribzip2.C44_stops_at_first_error",
    "Ribzip2.C44_ok_iff_all_ok",
    "Ribzip2.C44_only_the_output_changes"
   ],
   "note": ""
  },
  {
   "property": "C45",
   "status": "proved",
   "theorems": [
    "Ribzip2.C45_size_bounded",
    "Ribzip2.C45_size_large_inputs"
   ],
   "note": "Single-table strategy, at least one thread, any thread schedule (by C02/C03). The bound is 8/3 of the input plus 2200 bytes; it is not tight (17 bits per symbol are allowed for every symbol). C45_size_large_inputs is sharper for large inputs (1.5 times the size plus 39500 bytes)."
  },
  {
   "property": "C46",
   "status": "proved",
   "theorems": [
    "Ribzip2.C46_failed_round_trip_is_reported",
    "Ribzip2.C46_outcome"
   ],
   "note": ""
  },
  {
   "property": "C47",
   "status": "partial",
   "theorems": [
    "Ribzip2.C47_refuted_persistent_error_hangs"
   ],
   "note": "False (C47_refuted_persistent_error_hangs): for every such reader, thread count and schedule the call never ends."
  },
  {
   "property": "C48",
   "status": "partial",
   "theorems": [
    "Ribzip2.C48_refuted_on_the_command_line",
    "Ribzip2.C48_refuted_zero_threads"
   ],
   "note": "False (C48_refuted_zero_threads, and C48_refuted_on_the_command_line for --threads 0): with 0 threads the call never ends, on any input and schedule."
  },
  {
   "property": "C49",
   "status": "proved",
   "theorems": [
    "Ribzip2.C49_kmeans_never_panics",
    "Ribzip2.C49_kmeans_always_succeeds"
   ],
   "note": ""
  },
  {
   "property": "C50",
   "status": "partial",
   "theorems": [
    "Ribzip2.C50_refuted",
    "Ribzip2.C50_success_means_complete_partial",
    "Ribzip2.C50_every_file"
   ],
   "note": "False (C50_refuted): decode_block uses write, not write_all; a short write of the last block loses data with status 0. Proved for writes that are complete or fail. C50_every_file: exact description for every output file script."
  },
  {
   "property": "C51",
   "status": "partial",
   "theorems": [
    "Ribzip2.C51_round_trip_partial",
    "Ribzip2.C51_refuted",
    "Ribzip2.C51_refuted_kmeans",
    "Ribzip2.C51_refuted_text_files"
   ],
   "note": "False (C51_refuted, a 7 byte text file): consequence of C01. Proved for every content the library itself round-trips. C51_refuted_kmeans: also with the subcommand k-means and its defaults. C51_refuted_text_files: a wide class of text files that are not restored."
  },
  {
   "property": "C52",
   "status": "partial",
   "theorems": [
    "Ribzip2.C52_refuted_retry_is_refused",
    "Ribzip2.C52_refused_run_can_be_repeated_partial"
   ],
   "note": "False (C52_refuted_retry_is_refused): a failed run leaves its partial output behind, and every later run is refused. Proved: a run that was refused changes nothing."
  },
  {
   "property": "C53",
   "status": "proved",
   "theorems": [
    "Ribzip2.C53_only_the_delivered_bytes_matter",
    "Ribzip2.C53_read_error_is_not_completeness"
   ],
   "note": "For every writer, short writes and errors included."
  },
  {
   "property": "C54",
   "status": "proved",
   "theorems": [
    "Ribzip2.C54_content_is_unique",
    "Ribzip2.C54_output_determines_the_input"
   ],
   "note": "Uniqueness for the whole format specification (surplus selectors, any tables); the corollary for encode_stream has the hypotheses of C35."
  },
  {
   "property": "C55",
   "status": "partial",
   "theorems": [
    "Ribzip2.C55_refuted_block_size",
    "Ribzip2.C55_refuted",
    "Ribzip2.C55_level_is_ignored"
   ],
   "note": "False (C55_refuted, C55_refuted_block_size: 64 bytes that decode to 10^15 bytes; C55_level_is_ignored). In the real program such a stream exhausts memory; allocation failure is not modelled."
  },
  {
   "property": "C56",
   "status": "proved",
   "theorems": [
    "Ribzip2.C56_prefix_of_output"
   ],
   "note": "For exactly the inputs that round-trip (by C01_round_trip_partial, or however established; for the others see C15, C16, C46), single-table strategy."
  },
  {
   "property": "C57",
   "status": "partial",
   "theorems": [
    "Ribzip2.C57_randomised_flag_is_ignored"
   ],
   "note": "False: C57_randomised_flag_is_ignored shows that the flag never has any influence."
  },
  {
   "property": "C58",
   "status": "proved",
   "theorems": [
    "Ribzip2.C58_transform_is_injective",
    "Ribzip2.C58_encoder_is_injective",
    "Ribzip2.C58_a_decoder_exists",
    "Ribzip2.C58_encoder_is_injective_block_wise_partial",
    "Ribzip2.C58_encoder_is_injective_no_iterations",
    "Ribzip2.C58_encoder_is_injective_across_strategies_partial",
    "Ribzip2.C58_same_files"
   ],
   "note": "Single-table strategy for all pairs of inputs; the transform itself for all pairs of blocks. Beyond the statement: two files of one compress command have equal .bz2 files exactly if they are equal; k-means without iterations or with one table for all pairs of inputs, and, partial (theorems suffixed _partial), k-means in general for inputs whose blocks leave no gap in the selectors, also across strategies; missing are the blocks with a gap (defect D6)."
  },
  {
   "property": "C59",
   "status": "proved",
   "theorems": [
    "Ribzip2.C59_memory_is_bounded"
   ],
   "note": "Bounds what is in the channels and being compressed; the buffers of the block being read and the temporary data of the compression itself are functions of one block each."
  },
  {
   "property": "C60",
   "status": "proved",
   "theorems": [
    "Ribzip2.C60_workers_stop",
    "Ribzip2.C60_no_thread_left_behind",
    "Ribzip2.C60_nothing_is_written_afterwards",
    "Ribzip2.C60_all_threads_end"
   ],
   "note": "Part 3: nothing is read or written afterwards; process exit before the workers end is not modelled (detached threads are then killed)."
  },
  {
   "property": "C61",
   "status": "proved",
   "theorems": [
    "Ribzip2.C61_append_keeps_the_beginning"
   ],
   "note": ""
  },
  {
   "property": "C62",
   "status": "proved",
   "theorems": [
    "Ribzip2.C62_release_agrees",
    "Ribzip2.C62_checked_output_is_a_prefix",
    "Ribzip2.C62_release_decodes",
    "Ribzip2.C62_release_accepts_more",
    "Ribzip2.C62_release_round_trip_partial"
   ],
   "note": "C62_release_accepts_more shows that the exception is needed (defect D20). C62_release_round_trip_partial is C01 in its partial form for the release decoder. For the encoder: its model never panics (C39, C49), so no checked operation overflows and both builds are the same."
  },
  {
   "property": "C63",
   "status": "proved",
   "theorems": [
    "Ribzip2.C63_written_blocks_have_the_stored_crc",
    "Ribzip2.C63_ok_on_prefix_is_ok_on_whole",
    "Ribzip2.C63_output_on_prefix_is_prefix",
    "Ribzip2.C63_panic_only_inside_a_block",
    "Ribzip2.C63_decode_terminates",
    "Ribzip2.C63_wrong_magic_rejected",
    "Ribzip2.C63_only_the_delivered_bytes_matter",
    "Ribzip2.C63_read_error_is_not_completeness",
    "Ribzip2.C63_failed_round_trip_is_reported",
    "Ribzip2.C63_prefix_of_output"
   ],
   "note": "The CRC comparison protects the output also when code lengths or selectors wrap around."
  },
  {
   "property": "C64",
   "status": "partial",
   "theorems": [
    "Ribzip2.C64_takes_nothing_behind_the_footer_magic",
    "Ribzip2.C64_four_bytes_stay_unread",
    "Ribzip2.C64_four_bytes_stay_unread_own",
    "Ribzip2.C64_refuted",
    "Ribzip2.C64_second_call_fails"
   ],
   "note": "First half proved for all inputs (C64_takes_nothing_behind_the_footer_magic). Second half false (C64_refuted): the checksum of the footer is never read, so exactly the last four bytes of the stream stay unread (C64_four_bytes_stay_unread, also for own streams) and a second call on the same reader fails (C64_second_call_fails)."
  },
  {
   "property": "C65",
   "status": "partial",
   "theorems": [
    "Ribzip2.C65_refuted",
    "Ribzip2.C65_refuted_depends_on_threads",
    "Ribzip2.C65_at_least_to_the_first_eof_partial"
   ],
   "note": "False (C65_refuted): one end of file is not enough to stop, and with several threads the next worker reads on even after that, so the thread count decides what is compressed (C65_refuted_depends_on_threads). Proved: at least everything before the first end of file, and a prefix of everything delivered."
  },
  {
   "property": "C66",
   "status": "proved",
   "theorems": [
    "Ribzip2.C66_nothing_is_invented"
   ],
   "note": ""
  },
  {
   "property": "C67",
   "status": "proved",
   "theorems": [
    "Ribzip2.C67_threads_do_not_matter",
    "Ribzip2.C67_single",
    "Ribzip2.C67_number_of_tables",
    "Ribzip2.C67_no_iterations",
    "Ribzip2.C67_decompress"
   ],
   "note": "Stated for the parsed command line; structopt's parsing of the text is not modelled."
  },
  {
   "property": "C68",
   "status": "proved",
   "theorems": [
    "Ribzip2.C68_tables_by_clustering",
    "Ribzip2.C68_command_line",
    "Ribzip2.C68_clustering",
    "Ribzip2.C68_rounding",
    "Ribzip2.C68_square_root"
   ],
   "note": "f32 is modelled by rationals rounded to 24 bits of precision, without the limits of the exponent (the values that occur lie far inside them). The tolerances (0.01%, 1%) hold for all block contents, they cover every rounding error."
  },
  {
   "property": "C69",
   "status": "proved",
   "theorems": [
    "Ribzip2.C69_one_code_nearly_optimal",
    "Ribzip2.C69_size_by_alphabet"
   ],
   "note": "Nearly optimal means: the total length is at most that of any other code for the frequencies increased by a permutation of 0, 1, 2, ... The statistics count RUNA once too often in place of the end-of-block symbol, which gets frequency 0; both are in the statement."
  },
  {
   "property": "C70",
   "status": "proved",
   "theorems": [
    "Ribzip2.C70_complete_blocks_are_recovered",
    "Ribzip2.C70_complete_blocks_are_recovered_release",
    "Ribzip2.C70_after_a_failed_compress"
   ],
   "note": ""
  },
  {
   "property": "C71",
   "status": "proved",
   "theorems": [
    "Ribzip2.C71_same_output",
    "Ribzip2.C71_finite",
    "Ribzip2.C71_rounding"
   ],
   "note": ""
  },
  {
   "property": "C72",
   "status": "proved",
   "theorems": [
    "Ribzip2.C72_output_only_grows",
    "Ribzip2.C72_read_is_written_or_held",
    "Ribzip2.C72_killed_at_any_moment"
   ],
   "note": ""
  },
  {
   "property": "C73",
   "status": "proved",
   "theorems": [
    "Ribzip2.C73_all_threads_at_work",
    "Ribzip2.C73_in_rounds"
   ],
   "note": ""
  },
  {
   "property": "C74",
   "status": "proved",
   "theorems": [
    "Ribzip2.C74_damaged_fields_are_detected",
    "Ribzip2.C74_damaged_fields_are_detected_release",
    "Ribzip2.C74_few_flips_are_no_magic"
   ],
   "note": ""
  },
  {
   "property": "C75",
   "status": "proved",
   "theorems": [
    "Ribzip2.C75_suffix_sort_depth",
    "Ribzip2.C75_suffix_sort_of_a_block",
    "Ribzip2.C75_coin_trees"
   ],
   "note": ""
  },
  {
   "property": "C76",
   "status": "proved",
   "theorems": [
    "Ribzip2.C76_hash_seeds_do_not_matter",
    "Ribzip2.C76_code_lengths_do_not_depend_on_seeds"
   ],
   "note": ""
  },
  {
   "property": "C77",
   "status": "proved",
   "theorems": [
    "Ribzip2.C77_rotation_is_linear",
    "Ribzip2.C77_suffix_sort_is_linear",
    "Ribzip2.C77_transform_is_linear",
    "Ribzip2.C77_transform_is_linear_simple"
   ],
   "note": ""
  },
  {
   "property": "C78",
   "status": "proved",
   "theorems": [
    "Ribzip2.C78_how_a_cut_file_ends",
    "Ribzip2.C78_how_a_cut_file_ends_release"
   ],
   "note": ""
  },
  {
   "property": "C79",
   "status": "partial",
   "theorems": [
    "Ribzip2.C79_surplus_never_accepted_partial",
    "Ribzip2.C79_outcome_on_valid_partial",
    "Ribzip2.C79_outcome_on_valid_release_partial",
    "Ribzip2.C79_decoded_or_refused_partial",
    "Ribzip2.C79_refuted"
   ],
   "note": "False as stated: surplus selectors, which the format allows, can make the decoder panic (C79_refuted). Proved with the exact outcome, for both builds, for every valid stream with one selector per group. If only the last block has surplus selectors the stream is never accepted (C79_surplus_never_accepted_partial); missing are streams where an earlier block has them."
  },
  {
   "property": "C80",
   "status": "proved",
   "theorems": [
    "Ribzip2.C80_block_is_linear",
    "Ribzip2.C80_block_is_linear_simple",
    "Ribzip2.C80_input_is_linear",
    "Ribzip2.C80_block_is_linear_block_wise",
    "Ribzip2.C80_stream_is_linear",
    "Ribzip2.C80_stream_is_linear_block_wise",
    "Ribzip2.C80_bytes"
   ],
   "note": ""
  },
  {
   "property": "C81",
   "status": "proved",
   "theorems": [
    "Ribzip2.C81_counted_program_is_the_program",
    "Ribzip2.C81_block_is_linear",
    "Ribzip2.C81_stream_is_linear",
    "Ribzip2.C81_bytes"
   ],
   "note": ""
  },
  {
   "property": "C82",
   "status": "partial",
   "theorems": [
    "Ribzip2.C82_refuted",
    "Ribzip2.C82_what_is_printed_partial",
    "Ribzip2.C82_what_is_printed_release_partial"
   ],
   "note": "False of the code (C82_refuted, D23). Proved instead, for both builds: exactly which line is printed on which input, and none on success."
  },
  {
   "property": "C83",
   "status": "partial",
   "theorems": [
    "Ribzip2.C83_refuted",
    "Ribzip2.C83_output_is_file_partial"
   ],
   "note": "False of the code (C83_refuted, D24): README and code disagree. Proved instead: for every path the output is at the path without .bz2, newly created, and no other name changes."
  },
  {
   "property": "C84",
   "status": "proved",
   "theorems": [
    "Ribzip2.C84_refusal_is_explained"
   ],
   "note": ""
  },
  {
   "property": "C85",
   "status": "partial",
   "theorems": [
    "Ribzip2.C85_accepted_partial",
    "Ribzip2.C85_refuted",
    "Ribzip2.C85_release_accepted_partial"
   ],
   "note": "False of the code (C85_refuted, D25): the decoder tolerates deviations. Proved instead: every accepted input is a valid stream for what is returned or deviates in one of the ways listed in Spec/Strict.lean (release builds: or Spec/StrictRelease.lean); examples show them accepted."
  },
  {
   "property": "C86",
   "status": "proved",
   "theorems": [
    "Ribzip2.C86_blocks_can_be_recombined",
    "Ribzip2.C86_blocks_can_be_recombined_release",
    "Ribzip2.C86_compressed_block_by_block"
   ],
   "note": ""
  },
  {
   "property": "C87",
   "status": "proved",
   "theorems": [
    "Ribzip2.C87_same_output",
    "Ribzip2.C87_same_run",
    "Ribzip2.C87_machines_agree",
    "Ribzip2.C87_never_panics"
   ],
   "note": ""
  },
  {
   "property": "C88",
   "status": "partial",
   "theorems": [
    "Ribzip2.C88_valid_streams_decode_partial",
    "Ribzip2.C88_round_trip_across_machines_partial",
    "Ribzip2.C88_same_or_panic_partial",
    "Ribzip2.C88_model_is_64_bit",
    "Ribzip2.C88_refuted_long_code",
    "Ribzip2.C88_refuted_long_run"
   ],
   "note": "False of the code (C88_refuted_long_code, C88_refuted_long_run, D26). Proved: valid streams and the own output decode alike on every machine with 32 to 64 bits; any result of less than 2^29 bytes is that of a smaller machine or it panics; the model of the other files is the machine with 64 bits."
  },
  {
   "property": "C89",
   "status": "proved",
   "theorems": [
    "Ribzip2.C89_calls_of_decode_stream",
    "Ribzip2.C89_no_read_ahead",
    "Ribzip2.C89_no_read_ahead_release",
    "Ribzip2.C89_keeps_pace",
    "Ribzip2.C89_keeps_pace_release"
   ],
   "note": ""
  },
  {
   "property": "C90",
   "status": "partial",
   "theorems": [
    "Ribzip2.C90_existing_files_unchanged",
    "Ribzip2.C90_apart_partial",
    "Ribzip2.C90_different_outputs_partial",
    "Ribzip2.C90_same_bytes_partial",
    "Ribzip2.C90_same_file_partial",
    "Ribzip2.C90_mixture",
    "Ribzip2.C90_replaced",
    "Ribzip2.C90_refuted_mixed",
    "Ribzip2.C90_refuted_emptied"
   ],
   "note": "False of the code for runs with the same output path (C90_refuted_mixed, C90_refuted_emptied, D27). Proved for all interleavings: existing files unchanged; different output paths: each run ends and leaves its output as if alone; the same output path: as if alone if the runs do not meet between exists() and File::create, and the right bytes if all write the same (C90_same_file_partial: any number of compress runs on one file)."
  },
  {
   "property": "C91",
   "status": "partial",
   "theorems": [
    "Ribzip2.C91_written_in_rounds",
    "Ribzip2.C91_one_thread_partial",
    "Ribzip2.C91_delay",
    "Ribzip2.C91_refuted"
   ],
   "note": "False of the code for two threads and more (C91_refuted, D28). Proved: what exactly is written at each moment at which data is asked for, in every schedule (C91_written_in_rounds); with one thread the property holds (C91_one_thread_partial); at most t - 1 complete blocks are held back (C91_delay)."
  },
  {
   "property": "C92",
   "status": "proved",
   "theorems": [
    "Ribzip2.C92_same_argument",
    "Ribzip2.C92_same_program",
    "Ribzip2.C92_same_options",
    "Ribzip2.C92_only_the_output_can_differ",
    "Ribzip2.C92_release_accepts_more",
    "Ribzip2.C92_every_file",
    "Ribzip2.C92_round_trip"
   ],
   "note": ""
  },
  {
   "property": "C93",
   "status": "partial",
   "theorems": [
    "Ribzip2.C93_no_success_partial",
    "Ribzip2.C93_refuted_never_ends",
    "Ribzip2.C93_refuted_directory",
    "Ribzip2.C93_refuted_lost",
    "Ribzip2.C93_loss_is_bounded_partial",
    "Ribzip2.C93_decompress_reports",
    "Ribzip2.C93_decompress_directory"
   ],
   "note": "False of the code for compress (C93_refuted_never_ends, C93_refuted_directory, C93_refuted_lost, D29). Proved: persistent errors are never reported as success (C93_no_success_partial); the loss per error is bounded (C93_loss_is_bounded_partial); decompress reports (C93_decompress_reports, C93_decompress_directory)."
  },
  {
   "property": "C94",
   "status": "proved",
   "theorems": [
    "Ribzip2.C94_compress_many",
    "Ribzip2.C94_many_round_trip",
    "Ribzip2.C94_bad_file"
   ],
   "note": ""
  },
  {
   "property": "C95",
   "status": "partial",
   "theorems": [
    "Ribzip2.C95_what_is_left",
    "Ribzip2.C95_every_beginning_occurs",
    "Ribzip2.C95_ends",
    "Ribzip2.C95_killed_compress",
    "Ribzip2.C95_again_refused",
    "Ribzip2.C95_compress_noticed_partial",
    "Ribzip2.C95_decompress_unmarked",
    "Ribzip2.C95_refuted"
   ],
   "note": "False of the code for decompress (C95_refuted, C95_decompress_unmarked, D30). Proved: what is left at any moment of a run (C95_what_is_left, C95_every_beginning_occurs); the property for compress with every strategy and thread count (C95_killed_compress, C95_compress_noticed_partial); the same command refuses afterwards (C95_again_refused)."
  },
  {
   "property": "C96",
   "status": "partial",
   "theorems": [
    "Ribzip2.C96_existing_files_unchanged",
    "Ribzip2.C96_where_the_output_is",
    "Ribzip2.C96_output_at_its_path_partial",
    "Ribzip2.C96_refuted_every_dangling_link",
    "Ribzip2.C96_refuted",
    "Ribzip2.C96_without_links",
    "Ribzip2.C96_without_links_main",
    "Ribzip2.C96_existing_files_unchanged_main"
   ],
   "note": "The last part is false of the code (C96_refuted, C96_refuted_every_dangling_link, D31). Everything else is proved for all file systems with links (C96_existing_files_unchanged, C96_existing_files_unchanged_main, C96_where_the_output_is); the last part if the path of the output is not a link (C96_output_at_its_path_partial); C96_without_links(_main): the model of Model/Cli.lean is the case without links."
  }
 ]
}