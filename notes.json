{
 "C09": {
  "status": "partial",
  "note": "False as stated (C09_refuted, witness 1,1,1,1,0,0,0,5): inverse_rle takes a repeat count for a data byte. Proved for all inputs without a count/byte collision; C09_comes_back_iff_partial: exactly those come back (for inputs without 255 bytes 251 in a row)."
 },
 "C14": {
  "status": "partial",
  "note": "False: the footer CRC is never read (C14_refuted; C14_footer_crc_is_ignored shows the result is independent of it)."
 },
 "C17": {
  "status": "partial",
  "note": "False (C17_refuted): malformed blocks panic. Proved: a panic can only happen inside a block, after its magic; and if the block bodies are well-formed, no damage to the level byte, the checksums, or anything from the end of the last block on makes it panic."
 },
 "C19": {
  "status": "partial",
  "note": "False (C19_refuted): everything after the first footer is ignored (C19_trailing_data_is_ignored)."
 },
 "C27": {
  "status": "partial",
  "note": "False as stated (C27_refuted). The exact extent is proved: selectors come back iff the used tables are 0..k-1 without a gap."
 },
 "C36": {
  "status": "partial",
  "note": "False (C36_refuted): a short write loses data. Proved for writers that accept whole buffers. C36_every_writer: for every writer whatever it does, exactly what arrives and the result, and exactly when everything arrives."
 },
 "C33": {
  "status": "partial",
  "note": "False as stated (C33_refuted, witness the bytes of 'baaa'): the rotation starts at the smallest suffix of the string, which is proved exactly (C33_rotates_to_smallest_suffix); it is the minimal rotation iff it is not larger than the rotations to the other occurrences of that suffix (C33_minimal_iff_partial), in particular when there are none (C33_rotation_minimal_partial)."
 },
 "C05": {
  "status": "partial",
  "note": "False as stated (C05_refuted): an error that follows delivered data in the same refill drops that data and the call ends normally. The extent of the failure is proved exactly: what is compressed is the input with, for each error, at most the 719999 bytes delivered directly before it left out (C05_loss_per_error_partial, C05_loss_amount), and any input below 720000 bytes is lost entirely by a single transient error at its end while the call returns Ok (C05_refuted_everything_lost). Without errors nothing is omitted, and a persistent error never leads to a normal end."
 },
 "C07": {
  "status": "partial",
  "note": "False as stated (C07_refuted, C07_refuted_in_stream: a block of 900005 bytes). Proved: 900005 is an upper bound for every reader, strategy and thread count."
 },
 "C37": {
  "status": "partial",
  "note": "False as stated (C37_refuted): Ok(0) from the writer loses a byte. Proved for every writer that never answers Ok(0). C37_every_writer / C37_complete_iff: for every writer exactly what arrives, what is returned, and exactly when nothing is lost."
 },
 "C30": {
  "status": "partial",
  "note": "False as stated (C30_refuted, the bytes of 'baaa'). Proved: never fails and permutes the block for every non-empty input; the exact transform for the safe blocks and for no others (C30_bwt_iff_safe_partial: the code's transform is the sorted-rotation transform iff suffix order and rotation order agree after rotating); C30_safe_iff gives TransformSafe as an explicit condition on the string. C30_refuted_widely: a wide class of blocks whose transform the decoder's inverse does not undo."
 },
 "C01": {
  "status": "partial",
  "note": "False as stated (C01_refuted: the text 'A.\\n\\nB.\\n'). Proved for every input whose blocks are safe for the transform and free of count collisions, with classes of inputs recognisable at sight: the last byte occurs nowhere else (_fresh_last; with long runs, if that byte is at least 252: _marked), the smallest byte occurs only once (_unique_min), zero-terminated strings (_terminated). C01_round_trip_iff_partial: exact condition for single blocks that are safe for the transform. C01_round_trip_iff_no_runs_partial: exact condition for all inputs without four equal bytes in a row, of any length (C46_outcome: exactly what comes back from any input); C01_round_trip_iff_small_partial: exact condition for every input of one block, whatever it contains; C01_refuted_text_files, C01_refuted_text_blocks: a wide class of inputs that do not come back (texts whose last line ends in the same byte as another line, if the line behind that one begins with a smaller byte than the file, e.g. most source files with a blank line behind a '}')."
 },
 "C34": {
  "status": "partial",
  "note": "False as stated (C34_refuted_extra_selector, C34_refuted_repeat_count). Proved for every valid stream without surplus selectors and without a repeat count followed by three equal bytes. C34_decodes_iff_partial: the exact condition for all valid streams of one block."
 },
 "C35": {
  "status": "partial",
  "note": "False as stated (C35_refuted: the output for 'baaa' is not a valid stream for any content). Proved for inputs whose blocks are safe for the transform and at most 900000 bytes long; for one-block inputs without extreme runs safety is proved to be exactly the condition (C35_valid_iff_safe_partial). C35_refuted_text_files: a wide class of texts for which the output is invalid. C35_refuted_despite_round_trip: an invalid output that this library itself reads back."
 },
 "C47": {
  "status": "partial",
  "note": "False (C47_refuted_persistent_error_hangs): for every such reader, thread count and schedule the call never ends."
 },
 "C48": {
  "status": "partial",
  "note": "False (C48_refuted_zero_threads, and C48_refuted_on_the_command_line for --threads 0): with 0 threads the call never ends, on any input and schedule."
 },
 "C28": {
  "status": "partial",
  "note": "False as stated (C28_refuted_gap, C28_refuted_panic: default CLI parameters 6 tables / 3 iterations; C28_refuted_extra_selector). Proved when the selectors have no gap and the symbol count is not a multiple of 50, for every distance; unconditionally in those respects for inputs of at most 48 bytes. For inputs of one block without a gap the condition is exact (C28_comes_back_iff_partial); with a multiple of 50 symbols in the last block the output is never accepted (C28_refuted_multiple_of_50)."
 },
 "C29": {
  "status": "partial",
  "note": "False (C29_refuted: 8 tables write a stream on which the decoder panics). Proved: 0 tables always panic on non-empty input; 1 to 7 tables are C28. C29_rejected_iff_zero: exactly 0 is rejected, for every input; C29_refuted_one_and_seven: with 1 or 7 tables the output is never a valid bzip2 stream, for every input."
 },
 "C42": {
  "status": "partial",
  "note": "False as stated (C42_refuted): exists() and File::create are two steps, a file renamed to the output path in between is truncated. Proved: without that race only files created by the program are touched, whatever other processes do; and with no other process every existing file keeps its content."
 },
 "C43": {
  "status": "partial",
  "note": "False (C43_refuted_every_small_file): BufWriter is dropped without flush(), so a failing last write is ignored; every stream of at most 8192 bytes is lost with status 0. Proved: complete if no write fails; at most the last 8192 bytes missing in general; always a prefix."
 },
 "C50": {
  "status": "partial",
  "note": "False (C50_refuted): decode_block uses write, not write_all; a short write of the last block loses data with status 0. Proved for writes that are complete or fail. C50_every_file: exact description for every output file script."
 },
 "C51": {
  "status": "partial",
  "note": "False (C51_refuted, a 7 byte text file): consequence of C01. Proved for every content the library itself round-trips. C51_refuted_kmeans: also with the subcommand k-means and its defaults. C51_refuted_text_files: a wide class of text files that are not restored."
 },
 "C52": {
  "status": "partial",
  "note": "False (C52_refuted_retry_is_refused): a failed run leaves its partial output behind, and every later run is refused. Proved: a run that was refused changes nothing."
 },
 "C45": {
  "status": "proved",
  "note": "Single-table strategy, at least one thread, any thread schedule (by C02/C03). The bound is 8/3 of the input plus 2200 bytes; it is not tight (17 bits per symbol are allowed for every symbol). C45_size_large_inputs is sharper for large inputs (1.5 times the size plus 39500 bytes)."
 },
 "C53": {
  "status": "proved",
  "note": "For every writer, short writes and errors included."
 },
 "C54": {
  "status": "proved",
  "note": "Uniqueness for the whole format specification (surplus selectors, any tables); the corollary for encode_stream has the hypotheses of C35."
 },
 "C55": {
  "status": "partial",
  "note": "False (C55_refuted, C55_refuted_block_size: 64 bytes that decode to 10^15 bytes; C55_level_is_ignored). In the real program such a stream exhausts memory; allocation failure is not modelled."
 },
 "C56": {
  "status": "proved",
  "note": "For exactly the inputs that round-trip (by C01_round_trip_partial, or however established; for the others see C15, C16, C46), single-table strategy."
 },
 "C57": {
  "status": "partial",
  "note": "False: C57_randomised_flag_is_ignored shows that the flag never has any influence."
 },
 "C58": {
  "status": "proved",
  "note": "Single-table strategy for all pairs of inputs; the transform itself for all pairs of blocks. Beyond the statement: two files of one compress command have equal .bz2 files exactly if they are equal; k-means without iterations or with one table for all pairs of inputs, and, partial (theorems suffixed _partial), k-means in general for inputs whose blocks leave no gap in the selectors, also across strategies; missing are the blocks with a gap (defect D6)."
 },
 "C59": {
  "status": "proved",
  "note": "Bounds what is in the channels and being compressed; the buffers of the block being read and the temporary data of the compression itself are functions of one block each."
 },
 "C60": {
  "status": "proved",
  "note": "Part 3: nothing is read or written afterwards; process exit before the workers end is not modelled (detached threads are then killed)."
 },
 "C61": {
  "status": "proved",
  "note": ""
 },
 "C62": {
  "status": "proved",
  "note": "C62_release_accepts_more shows that the exception is needed (defect D20). C62_release_round_trip_partial is C01 in its partial form for the release decoder. For the encoder: its model never panics (C39, C49), so no checked operation overflows and both builds are the same."
 },
 "C63": {
  "status": "proved",
  "note": "The CRC comparison protects the output also when code lengths or selectors wrap around."
 },
 "C64": {
  "status": "partial",
  "note": "First half proved for all inputs (C64_takes_nothing_behind_the_footer_magic). Second half false (C64_refuted): the checksum of the footer is never read, so exactly the last four bytes of the stream stay unread (C64_four_bytes_stay_unread, also for own streams) and a second call on the same reader fails (C64_second_call_fails)."
 },
 "C65": {
  "status": "partial",
  "note": "False (C65_refuted): one end of file is not enough to stop, and with several threads the next worker reads on even after that, so the thread count decides what is compressed (C65_refuted_depends_on_threads). Proved: at least everything before the first end of file, and a prefix of everything delivered."
 },
 "C66": {
  "status": "proved",
  "note": ""
 },
 "C67": {
  "status": "proved",
  "note": "Stated for the parsed command line; structopt's parsing of the text is not modelled."
 },
 "C68": {
  "status": "proved",
  "note": "f32 is modelled by rationals rounded to 24 bits of precision, without the limits of the exponent (the values that occur lie far inside them). The tolerances (0.01%, 1%) hold for all block contents, they cover every rounding error."
 },
 "C69": {
  "status": "proved",
  "note": "Nearly optimal means: the total length is at most that of any other code for the frequencies increased by a permutation of 0, 1, 2, ... The statistics count RUNA once too often in place of the end-of-block symbol, which gets frequency 0; both are in the statement."
 },
 "C79": {
  "status": "partial",
  "note": "False as stated: surplus selectors, which the format allows, can make the decoder panic (C79_refuted). Proved with the exact outcome, for both builds, for every valid stream with one selector per group. If only the last block has surplus selectors the stream is never accepted (C79_surplus_never_accepted_partial); missing are streams where an earlier block has them."
 },
 "C82": {
  "status": "partial",
  "note": "False of the code (C82_refuted, D23). Proved instead, for both builds: exactly which line is printed on which input, and none on success."
 },
 "C83": {
  "status": "partial",
  "note": "False of the code (C83_refuted, D24): README and code disagree. Proved instead: for every path the output is at the path without .bz2, newly created, and no other name changes."
 },
 "C85": {
  "status": "partial",
  "note": "False of the code (C85_refuted, D25): the decoder tolerates deviations. Proved instead: every accepted input is a valid stream for what is returned or deviates in one of the ways listed in Spec/Strict.lean (release builds: or Spec/StrictRelease.lean); examples show them accepted."
 },
 "C88": {
  "status": "partial",
  "note": "False of the code (C88_refuted_long_code, C88_refuted_long_run, D26). Proved: valid streams and the own output decode alike on every machine with 32 to 64 bits; any result of less than 2^29 bytes is that of a smaller machine or it panics; the model of the other files is the machine with 64 bits."
 },
 "C90": {
  "status": "partial",
  "note": "False of the code for runs with the same output path (C90_refuted_mixed, C90_refuted_emptied, D27). Proved for all interleavings: existing files unchanged; different output paths: each run ends and leaves its output as if alone; the same output path: as if alone if the runs do not meet between exists() and File::create, and the right bytes if all write the same (C90_same_file_partial: any number of compress runs on one file)."
 },
 "C91": {
  "status": "partial",
  "note": "False of the code for two threads and more (C91_refuted, D28). Proved: what exactly is written at each moment at which data is asked for, in every schedule (C91_written_in_rounds); with one thread the property holds (C91_one_thread_partial); at most t - 1 complete blocks are held back (C91_delay)."
 },
 "C93": {
  "status": "partial",
  "note": "False of the code for compress (C93_refuted_never_ends, C93_refuted_directory, C93_refuted_lost, D29). Proved: persistent errors are never reported as success (C93_no_success_partial); the loss per error is bounded (C93_loss_is_bounded_partial); decompress reports (C93_decompress_reports, C93_decompress_directory)."
 },
 "C95": {
  "status": "partial",
  "note": "False of the code for decompress (C95_refuted, C95_decompress_unmarked, D30). Proved: what is left at any moment of a run (C95_what_is_left, C95_every_beginning_occurs); the property for compress with every strategy and thread count (C95_killed_compress, C95_compress_noticed_partial); the same command refuses afterwards (C95_again_refused)."
 },
 "C96": {
  "status": "partial",
  "note": "The last part is false of the code (C96_refuted, C96_refuted_every_dangling_link, D31). Everything else is proved for all file systems with links (C96_existing_files_unchanged, C96_existing_files_unchanged_main, C96_where_the_output_is); the last part if the path of the output is not a link (C96_output_at_its_path_partial); C96_without_links(_main): the model of Model/Cli.lean is the case without links."
 }
}