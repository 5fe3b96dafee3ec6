{"id": "C01", "title": "Compress/decompress round trip (single table)", "statement": "For every byte string d and every number of worker threads >= 1, running decode_stream on the bytes written by encode_stream(d, threads, EncodingStrategy::Single) returns Ok and writes exactly d.", "quantifier": "all byte strings of any length, all thread counts >= 1", "why_tests_cant": "Round-trip tests sample a handful of files; the failures live in the relation between where the smallest suffix of a block lies and the rest of the block, and between run lengths and neighbouring byte values.", "anchors": ["lib/src/stream/mod.rs:encode_stream", "lib/src/stream/mod.rs:decode_stream"]}
{"id": "C02", "title": "Output independent of thread count and schedule", "statement": "For every input and strategy, every interleaving of the main thread with the worker threads, and every thread count >= 1, encode_stream writes the same bytes, equal to those of encoding the blocks one after the other.", "quantifier": "all inputs, all strategies, all thread counts >= 1, all interleavings", "why_tests_cant": "A test run observes a few schedules of a few thread counts.", "anchors": ["lib/src/stream/mod.rs:WorkerThread", "lib/src/stream/mod.rs:encode_stream"]}
{"id": "C03", "title": "encode_stream terminates without deadlock", "statement": "For every reader that reaches end of file and every thread count >= 1, encode_stream finishes under every schedule: no reachable state is stuck and no execution is infinite.", "quantifier": "all inputs and reader scripts ending in end of file, all thread counts >= 1, all schedules", "why_tests_cant": "Deadlock freedom and termination quantify over every schedule and over infinitely many states.", "anchors": ["lib/src/stream/mod.rs:encode_stream", "lib/src/stream/mod.rs:WorkerThread"]}
{"id": "C04", "title": "Result does not depend on how the reader splits its data", "statement": "encode_stream's output depends only on the concatenation of the bytes the reader delivers, not on the sizes of the individual reads or on Interrupted results between them.", "quantifier": "all splittings of all inputs into non-empty reads, with any number of Interrupted results anywhere", "why_tests_cant": "There are exponentially many splittings of each input.", "anchors": ["lib/src/stream/mod.rs:encode_stream"]}
{"id": "C05", "title": "A read error never silently drops data", "statement": "If the reader reports an error, encode_stream does not finish normally having omitted bytes the reader delivered.", "quantifier": "all readers, with errors at any point", "why_tests_cant": "Fault positions are unbounded; the loss only occurs when the error follows delivered data inside one refill.", "anchors": ["lib/src/stream/mod.rs:encode_stream (lines 136-147)"]}
{"id": "C06", "title": "Container layout", "statement": "Every output of encode_stream is: the bytes BZh9, then the blocks each beginning with the 48-bit block magic and the block CRC, then the 48-bit footer magic and the 32-bit combined CRC of all block CRCs in order, then fewer than 8 zero bits of padding.", "quantifier": "all inputs, strategies and thread counts", "why_tests_cant": "The layout is bit- rather than byte-aligned and block lengths vary, so a test sees only the alignments it happens to produce.", "anchors": ["lib/src/stream/mod.rs:file_header", "lib/src/stream/mod.rs:stream_footer", "lib/src/block/block_encoder.rs:block_header", "lib/src/bitwise/bitwriter.rs:BitWriterImpl"]}
{"id": "C07", "title": "Blocks respect the declared block size", "statement": "Every block encode_stream emits under the header BZh9 holds at most 900000 bytes after run-length encoding, the limit every bzip2 decoder enforces for level 9.", "quantifier": "all inputs", "why_tests_cant": "Violations need inputs of more than 800 kB with particular runs at one refill boundary.", "anchors": ["lib/src/stream/mod.rs:encode_stream (RLE_LIMIT, to_take)", "lib/src/block/rle.rs:rle_total_size"]}
{"id": "C08", "title": "Block splitting loses, duplicates and reorders nothing", "statement": "The blocks encode_stream cuts the input into are non-empty and their concatenation, in the order they are written, is the input.", "quantifier": "all inputs, all thread counts >= 1", "why_tests_cant": "The cut points depend on the run structure of the whole prefix; the refill size can approach zero near the limit, where a zero-length refill would look like end of file.", "anchors": ["lib/src/stream/mod.rs:encode_stream", "lib/src/block/rle.rs:rle"]}
{"id": "C09", "title": "Run-length stage can be undone by this library", "statement": "For every byte string d, inverse_rle of the run-length encoding of d is d.", "quantifier": "all byte strings", "why_tests_cant": "Needs a run of four or more followed by bytes equal to the run's count byte.", "anchors": ["lib/src/block/rle.rs:rle", "lib/src/block/rle.rs:rle_augment", "lib/src/block/rle.rs:inverse_rle"]}
{"id": "C10", "title": "Run-length stage produces standard bzip2 RLE1, independent of refills", "statement": "For every byte string, however it is cut into refills, the run-length stage produces the same output, and the standard RLE1 decoder (four equal bytes then a repeat count, then a fresh start) maps it back to the input; the size predicted by rle_total_size is its exact length.", "quantifier": "all byte strings, all ways of cutting them into refills", "why_tests_cant": "State (counter, last byte) is carried across arbitrary cut points.", "anchors": ["lib/src/block/rle.rs:rle", "lib/src/block/rle.rs:rle_total_size", "lib/src/block/rle.rs:rle_augment"]}
{"id": "C11", "title": "CRC is the bzip2 CRC-32", "statement": "For every byte string, crc32 returns the CRC computed bit by bit with polynomial 0x04C11DB7, most significant bit first, initial value and final xor all ones.", "quantifier": "all byte strings", "why_tests_cant": "A table entry that is wrong shows only for inputs that reach that entry.", "anchors": ["lib/src/block/crc32.rs:crc32"]}
{"id": "C12", "title": "CRC detects every burst of up to 32 bits and any two flipped bits", "statement": "Two byte strings of the same length that differ, and differ only inside a window of 32 consecutive bits (or of four bytes), or in exactly two bits, anywhere in up to 512 MiB (more than any block holds), have different CRCs.", "quantifier": "all byte strings, all window positions, all pairs of positions, all differing contents", "why_tests_cant": "2^64 pairs of windows per prefix and suffix.", "anchors": ["lib/src/block/crc32.rs:crc32"]}
{"id": "C13", "title": "Decoded blocks are checked against their CRC", "statement": "If decode_stream returns Ok on any input whatever, everything it wrote is a concatenation of blocks, each of whose CRC equals the CRC stored in the input for that block; a block whose CRC does not match is not written and makes the call fail.", "quantifier": "all input byte strings, well-formed or not", "why_tests_cant": "Malformed inputs are unbounded.", "anchors": ["lib/src/block/block_decoder.rs:decode_block", "lib/src/stream/mod.rs:decode_stream"]}
{"id": "C14", "title": "decode_stream checks the whole-stream checksum", "statement": "decode_stream returns Ok only if the combined CRC in the stream footer matches the blocks decoded.", "quantifier": "all input byte strings", "why_tests_cant": "Needs corrupted footers behind valid blocks.", "anchors": ["lib/src/stream/mod.rs:decode_stream"]}
{"id": "C15", "title": "A truncated stream is never reported as complete", "statement": "If decode_stream returns Ok on a prefix of a stream (a file cut short by a crash at any byte), then it returns Ok with the very same output on the whole stream.", "quantifier": "all streams, all cut points", "why_tests_cant": "Every crash point of every file.", "anchors": ["lib/src/stream/mod.rs:decode_stream", "lib/src/bitwise/bitreader.rs:BitReaderImpl"]}
{"id": "C16", "title": "Data already written before a failure is a prefix of the truth", "statement": "Whatever decode_stream has written when it fails on a prefix of a stream is a prefix of what it writes on the whole stream.", "quantifier": "all streams, all cut points", "why_tests_cant": "Every crash point of every file.", "anchors": ["lib/src/stream/mod.rs:decode_stream", "lib/src/block/block_decoder.rs:decode_block"]}
{"id": "C17", "title": "decode_stream never panics", "statement": "For every input byte string decode_stream returns Ok or Err; malformed or truncated input gives Err, not a panic.", "quantifier": "all input byte strings", "why_tests_cant": "Malformed inputs are unbounded.", "anchors": ["lib/src/block/block_decoder.rs:decode_block", "lib/src/stream/mod.rs:decode_stream"]}
{"id": "C18", "title": "decode_stream terminates", "statement": "decode_stream stops on every finite input, after consuming at most the bits it contains.", "quantifier": "all input byte strings", "why_tests_cant": "Non-termination cannot be observed by a test.", "anchors": ["lib/src/stream/mod.rs:decode_stream", "lib/src/block/huffman/reader.rs:read_symbols", "lib/src/block/selectors.rs:read_unary", "lib/src/block/code_table.rs:read_delta"]}
{"id": "C19", "title": "Concatenated streams decode to concatenated data", "statement": "Decoding the concatenation of two complete bzip2 files yields the concatenation of their contents, as bunzip2 does.", "quantifier": "all pairs of streams", "why_tests_cant": "Quantifies over pairs of arbitrary streams.", "anchors": ["lib/src/stream/mod.rs:decode_stream"]}
{"id": "C20", "title": "Move-to-front round trip", "statement": "For every byte string, the move-to-front stage followed by its inverse with the transmitted set of used bytes gives the string back, and every index emitted is smaller than the number of distinct bytes.", "quantifier": "all byte strings", "why_tests_cant": "Unbounded input; index 255 needs all 256 byte values.", "anchors": ["lib/src/block/mtf.rs:mtf", "lib/src/block/mtf.rs:inverse_mtf"]}
{"id": "C21", "title": "Zero-run stage round trip", "statement": "For every byte string (with runs of zeros of any length that a usize can count), the zero-run encoding followed by decoding gives the string back.", "quantifier": "all byte strings with fewer than 2^63 bytes", "why_tests_cant": "Runs of every length in every position.", "anchors": ["lib/src/block/zle.rs:zle_transform", "lib/src/block/zle.rs:decode_zle"]}
{"id": "C22", "title": "Symbol map round trip", "statement": "For every set of used bytes, reading the transmitted symbol map back gives exactly that set in increasing order and consumes exactly the bits written.", "quantifier": "all 2^256 sets of bytes, any following bits", "why_tests_cant": "2^256 sets.", "anchors": ["lib/src/block/symbol_map.rs:get_symbol_table"]}
{"id": "C23", "title": "Huffman lengths form a complete prefix code within the limit", "statement": "For every frequency table of the symbols of a block, the computed code lengths are between 1 and 17 (at most the format's 20) and satisfy Kraft's equality, so they are exactly the depths of the leaves of a full binary tree.", "quantifier": "all frequency tables with 2 to 258 symbols (all that occur: the end-of-block symbol and 1 to 257 others), all frequencies including zeros and ties", "why_tests_cant": "Unbounded frequency tables.", "anchors": ["lib/src/block/huffman/package_merge.rs:compute_lis", "lib/src/block/huffman/huffman_internal.rs:compute_huffman"]}
{"id": "C24", "title": "Huffman lengths are optimal", "statement": "Among all prefix codes with lengths at most 17, the computed lengths minimise the total weighted length for the (tie-broken) weights.", "quantifier": "all frequency tables of a block (2 to 258 symbols, any frequencies), all competing codes", "why_tests_cant": "Quantifies over all codes.", "anchors": ["lib/src/block/huffman/package_merge.rs:package_merge"]}
{"id": "C25", "title": "Huffman payload decodes uniquely", "statement": "For every code-length table satisfying Kraft's inequality with lengths at least 1, the canonical codes are prefix-free, and reading the concatenated codes of any symbol sequence returns that sequence and consumes exactly its bits, whatever follows.", "quantifier": "all code-length tables, all symbol sequences, all following bits", "why_tests_cant": "Unbounded tables and sequences.", "anchors": ["lib/src/block/huffman/huffman_internal.rs:canonicalize", "lib/src/block/huffman/reader.rs:read_symbols"]}
{"id": "C26", "title": "Code-length tables round trip", "statement": "For every non-empty sequence of code lengths with the first below 32 and all below 256, reading back the transmitted delta code gives the same sequence and consumes exactly the bits written.", "quantifier": "all code-length sequences, any following bits", "why_tests_cant": "Unbounded sequences.", "anchors": ["lib/src/block/code_table.rs:encode_bit_lengths", "lib/src/block/code_table.rs:read_delta", "lib/src/block/delta.rs:encode_delta"]}
{"id": "C27", "title": "Table selectors round trip", "statement": "For every sequence of table selectors over n tables, decoding the transmitted selectors gives the sequence back.", "quantifier": "all selector sequences over 1 to 7 tables", "why_tests_cant": "Sequences that skip a table number are rare in tests with large files.", "anchors": ["lib/src/block/selectors.rs:create_selectors", "lib/src/block/selectors.rs:read_unary", "lib/src/block/block_decoder.rs:decode_block"]}
{"id": "C28", "title": "Compress/decompress round trip (k-means tables)", "statement": "For every byte string d, every thread count >= 1 and every BlockWise strategy the CLI accepts, decode_stream of encode_stream's output is d.", "quantifier": "all byte strings, thread counts, numbers of tables and iterations", "why_tests_cant": "Depends on the clustering result of every input.", "anchors": ["lib/src/stream/mod.rs:encode_stream", "lib/src/block/symbol_statistics/mod.rs:BlockWisePropabilityMap", "lib/src/block/symbol_statistics/kmeansclustering.rs:KMeansProblem::solve"]}
{"id": "C29", "title": "Unsupported table counts are rejected", "statement": "encode_stream never silently writes a stream its own decoder cannot read because of num_clusters: counts that do not fit the format's 3-bit field are refused or handled.", "quantifier": "all values of num_clusters", "why_tests_cant": "Unbounded parameter range.", "anchors": ["lib/src/block/block_encoder.rs:generate_block_data", "cli/src/main.rs:EncodingOptions"]}
{"id": "C30", "title": "BWT is the sorted-rotation transform", "statement": "For every non-empty byte string the Burrows-Wheeler stage outputs the last column of the lexicographically sorted rotations and the row of the original string.", "quantifier": "all non-empty byte strings", "why_tests_cant": "The wrong results depend on how a suffix wraps around the end of the block.", "anchors": ["lib/src/block/bwt/bwt_internal.rs:bwt"]}
{"id": "C31", "title": "Inverse BWT inverts the sorted-rotation transform", "statement": "For every non-empty byte string, inverse_bwt applied to the last column of its sorted rotations and the row of the string returns the string (periodic strings included).", "quantifier": "all non-empty byte strings", "why_tests_cant": "Unbounded strings, periodic ones need separate reasoning.", "anchors": ["lib/src/block/bwt/bwt_inverse.rs:inverse_bwt"]}
{"id": "C32", "title": "Suffix array construction is correct and does not panic", "statement": "For every byte string, the suffix array construction returns exactly the permutation of positions 0..=n that sorts all suffixes lexicographically (shorter first on ties), with no out-of-range access, underflow or missing entry.", "quantifier": "all byte strings of any length", "why_tests_cant": "Induced sorting recursion depth and bucket interactions are unbounded.", "anchors": ["lib/src/block/bwt/sais.rs:build_suffix_array"]}
{"id": "C33", "title": "Rotation step", "statement": "The rotation chosen before suffix sorting is the lexicographically minimal rotation of the block.", "quantifier": "all byte strings", "why_tests_cant": "Fails only when the minimal rotation crosses the end of the block.", "anchors": ["lib/src/block/bwt/duval.rs:rotate_duval"]}
{"id": "C34", "title": "Every valid bzip2 stream decodes", "statement": "decode_stream returns Ok with the right data on every stream that is valid according to the bzip2 format.", "quantifier": "all valid streams from any encoder", "why_tests_cant": "Quantifies over all encoders' output.", "anchors": ["lib/src/stream/mod.rs:decode_stream", "lib/src/block/block_decoder.rs:decode_block"]}
{"id": "C35", "title": "Every emitted block is valid bzip2", "statement": "Every stream written by encode_stream with the single-table strategy is a valid bzip2 stream for the input, according to a specification of the format that does not mention this library.", "quantifier": "all byte strings, all thread counts >= 1", "why_tests_cant": "Validity couples every stage.", "anchors": ["lib/src/block/block_encoder.rs:generate_block_data"]}
{"id": "C36", "title": "Decoder output complete for every Write implementation", "statement": "If decode_stream returns Ok, the writer has received every decoded byte, also when the writer accepts fewer bytes than offered.", "quantifier": "all input streams, all writer behaviours", "why_tests_cant": "Writer behaviours are unbounded.", "anchors": ["lib/src/block/block_decoder.rs:decode_block (writer.write)"]}
{"id": "C37", "title": "Encoder output complete for every Write implementation", "statement": "If encode_stream returns, the writer has received every byte of the compressed stream.", "quantifier": "all inputs, all writer behaviours", "why_tests_cant": "Writer behaviours are unbounded.", "anchors": ["lib/src/bitwise/bitwriter.rs:BitWriterImpl::write_bits", "lib/src/bitwise/bitwriter.rs:finalize"]}
{"id": "C38", "title": "Bits written are the bits read", "statement": "Whatever sequence of bit groups is written and however the reads are sized, reading the produced bytes yields the same bits in order, followed by fewer than 8 zero bits, then an error.", "quantifier": "all bit sequences, all groupings of writes and reads", "why_tests_cant": "All groupings of all sequences.", "anchors": ["lib/src/bitwise/bitwriter.rs", "lib/src/bitwise/bitreader.rs"]}
{"id": "C39", "title": "encode_stream does not panic", "statement": "For every input and thread count encode_stream with the single-table strategy never panics (no index, unwrap or arithmetic failure in any stage), given a writer that does not fail.", "quantifier": "all byte strings, all thread counts", "why_tests_cant": "Panics hide in boundary values (256 distinct bytes, one-byte blocks, full blocks).", "anchors": ["lib/src/block/block_encoder.rs:generate_block_data", "lib/src/stream/mod.rs:encode_stream"]}
{"id": "C40", "title": "Wrong magic is rejected with no output", "statement": "If the first four bytes are not B Z h followed by any byte, or fewer than four are available, decode_stream returns Err and writes nothing.", "quantifier": "all input byte strings", "why_tests_cant": "Unbounded inputs.", "anchors": ["lib/src/stream/mod.rs:read_file_header"]}
{"id": "C41", "title": "CLI file names round trip", "statement": "For every file name that names a file, decompressing writes to the name that was compressed: the decompress name of the compress name of f is f.", "quantifier": "all file names (any dots, leading dots, trailing dots)", "why_tests_cant": "Unbounded names.", "anchors": ["cli/src/main.rs:try_main"]}
{"id": "C42", "title": "CLI never overwrites an existing file", "statement": "Neither compress nor decompress changes the content of a file that existed before, whatever other processes do in the meantime.", "quantifier": "all file systems, all argument lists, all interleavings with other processes", "why_tests_cant": "The race is between exists() and File::create().", "anchors": ["cli/src/main.rs:create_file", "cli/src/main.rs:try_main"]}
{"id": "C43", "title": "CLI compress success means the output is complete", "statement": "If compress exits with status 0, the output file holds the whole compressed stream.", "quantifier": "all inputs, all write-error positions", "why_tests_cant": "Error positions are unbounded; the last buffer is written in a destructor.", "anchors": ["cli/src/main.rs:try_main (BufWriter)"]}
{"id": "C44", "title": "CLI stops at the first error and leaves later files alone", "statement": "Files are processed in order, each in the state the earlier ones left; on the first failure nothing is done for the later arguments; the status is 0 exactly if every argument succeeded; each argument changes no path but its output, and a refused argument changes nothing.", "quantifier": "all argument lists, all file systems", "why_tests_cant": "Unbounded lists and file systems.", "anchors": ["cli/src/main.rs:try_main"]}
{"id": "C45", "title": "Compressed size is bounded", "statement": "encode_stream's single-table output is at most a fixed linear function of the input size.", "quantifier": "all byte strings", "why_tests_cant": "Worst cases are unbounded.", "anchors": ["lib/src/stream/mod.rs:encode_stream", "lib/src/block/block_encoder.rs:generate_block_data"]}
{"id": "C46", "title": "A failed round trip is reported, not silent", "statement": "decode_stream on what encode_stream wrote (single-table strategy) never panics and never hangs: it returns an error, or Ok with blocks whose CRCs are those of the blocks of the input.", "quantifier": "all byte strings, all thread counts >= 1", "why_tests_cant": "Quantifies over every input, including those whose round trip fails.", "anchors": ["lib/src/stream/mod.rs:decode_stream", "lib/src/stream/mod.rs:encode_stream", "lib/src/block/block_decoder.rs:decode_block"]}
{"id": "C47", "title": "A persistent read error does not hang the encoder", "statement": "If the reader keeps failing, encode_stream ends (having no way to return an error, by panicking) instead of running forever.", "quantifier": "all scripts of reads before the error persists, all thread counts, all schedules", "why_tests_cant": "Non-termination cannot be observed by a test.", "anchors": ["lib/src/stream/mod.rs:encode_stream"]}
{"id": "C48", "title": "Thread count zero does not hang the encoder", "statement": "encode_stream with num_threads = 0 (which the CLI accepts) ends.", "quantifier": "all inputs, all schedules", "why_tests_cant": "Non-termination cannot be observed by a test.", "anchors": ["lib/src/stream/mod.rs:encode_stream", "cli/src/main.rs:try_main"]}
{"id": "C49", "title": "Compression with k-means never panics", "statement": "encode_stream with the BlockWise strategy and at least one table never panics and never returns an error on a reliable writer, whatever the reader does, for every number of tables (even more than the format allows), iterations and threads.", "quantifier": "all reader scripts, all numbers of tables >= 1, iterations, thread counts", "why_tests_cant": "u8 counters, the clustering's indices and the selector count depend on every block.", "anchors": ["lib/src/block/symbol_statistics/mod.rs:BlockWisePropabilityMap", "lib/src/block/symbol_statistics/kmeansclustering.rs:KMeansProblem::solve", "lib/src/block/block_encoder.rs:generate_block_data"]}
{"id": "C50", "title": "CLI decompress success means the output is complete", "statement": "If decompress exits with status 0, the output file holds everything the stream decodes to.", "quantifier": "all streams, all behaviours of the write calls (short writes, errors)", "why_tests_cant": "Depends on the result of every single write call.", "anchors": ["cli/src/main.rs:try_main", "lib/src/block/block_decoder.rs:decode_block", "lib/src/stream/mod.rs:decode_stream"]}
{"id": "C51", "title": "CLI round trip restores the file", "statement": "compress f, delete f, decompress f.bz2: both exit with status 0 and f is back with the same content.", "quantifier": "all file names, all contents, all thread counts and strategies, all ways the reads are split", "why_tests_cant": "Unbounded file names and contents.", "anchors": ["cli/src/main.rs:try_main", "lib/src/stream/mod.rs:encode_stream", "lib/src/stream/mod.rs:decode_stream"]}
{"id": "C52", "title": "A failed CLI run can be repeated", "statement": "If a run fails (say, because the disk is full or the input is damaged), the same command works once the cause is gone.", "quantifier": "all commands, all failures, all file systems", "why_tests_cant": "Quantifies over every point at which a run can fail.", "anchors": ["cli/src/main.rs:create_file", "cli/src/main.rs:try_main"]}
{"id": "C53", "title": "Decoding depends only on the bytes delivered", "statement": "What decode_stream writes and returns depends only on the bytes the reader delivers before end of file or its first error, not on the sizes of the reads or Interrupted results; and Ok after a read error implies the same Ok without the error.", "quantifier": "all reader behaviours, all writers", "why_tests_cant": "Unboundedly many ways to split the data and to fail.", "anchors": ["lib/src/bitwise/bitreader.rs:BitReaderImpl", "lib/src/stream/mod.rs:decode_stream"]}
{"id": "C54", "title": "A stream has one content only", "statement": "No byte string is a valid bzip2 stream for two different contents, so every conforming decoder restores exactly the input whenever encode_stream wrote a stream that is valid for it.", "quantifier": "all byte strings, all contents, all ways to code a block", "why_tests_cant": "Quantifies over all other decoders.", "anchors": ["lib/src/stream/mod.rs:encode_stream", "lib/src/block/block_encoder.rs:generate_block_data"]}
{"id": "C55", "title": "Declared limits are enforced", "statement": "decode_stream refuses blocks larger than the block size the header declares (and headers that declare none), so that a small stream cannot make it produce or allocate an unbounded amount of data.", "quantifier": "all byte strings", "why_tests_cant": "The amplification depends on unbounded symbol sequences.", "anchors": ["lib/src/block/block_decoder.rs:decode_block", "lib/src/block/zle.rs:decode_zle", "lib/src/stream/mod.rs:read_file_header"]}
{"id": "C56", "title": "Every crash point while writing is safe", "statement": "If the writing of a stream is cut at any byte, decoding what is there either fails after writing a prefix of the input, or returns Ok with exactly the input, the latter only if at most the last 4 bytes (checksum and padding) are missing.", "quantifier": "all inputs that round-trip, all crash points", "why_tests_cant": "Every prefix of every output.", "anchors": ["lib/src/stream/mod.rs:encode_stream", "lib/src/stream/mod.rs:decode_stream"]}
{"id": "C57", "title": "Randomised blocks are not misread", "statement": "A block flagged as randomised is refused or derandomised, not decoded as if the flag were not set.", "quantifier": "all blocks", "why_tests_cant": "Quantifies over all contents of the block.", "anchors": ["lib/src/block/block_decoder.rs:decode_block"]}
{"id": "C58", "title": "Compression loses nothing", "statement": "The bytes encode_stream writes (single table) determine the input: two different inputs never give the same output, for any thread counts, so that the data is recoverable in principle even from outputs no bzip2 decoder restores.", "quantifier": "all pairs of inputs", "why_tests_cant": "Quantifies over all pairs of inputs.", "anchors": ["lib/src/block/bwt/mod.rs:bwt", "lib/src/block/bwt/duval.rs:rotate_duval", "lib/src/stream/mod.rs:encode_stream"]}
{"id": "C59", "title": "Memory is bounded by the thread count", "statement": "At every moment of encode_stream with t threads at most t blocks (queued, being compressed, or waiting to be written) exist, each of at most 900005 bytes before compression, however long the input and however slow reader, writer or workers are.", "quantifier": "all readers, writers, thread counts, schedules, moments", "why_tests_cant": "Depends on the schedule.", "anchors": ["lib/src/stream/mod.rs:encode_stream", "lib/src/stream/mod.rs:WorkerThread"]}
{"id": "C60", "title": "No thread is left behind", "statement": "After encode_stream has ended, normally or by a panic, all its worker threads end too (none blocks forever), and what they still do has no observable effect.", "quantifier": "all readers, writers, thread counts, schedules, ways to end", "why_tests_cant": "Depends on the schedule and the point of failure.", "anchors": ["lib/src/stream/mod.rs:WorkerThread", "lib/src/stream/mod.rs:encode_stream"]}
{"id": "C61", "title": "Appending changes only the end of the output", "statement": "Appending data to an input leaves the beginning of the compressed stream unchanged: the header and all blocks but the last one of the original, i.e. everything but the last 45900255 bytes of the input, for any strategy and thread counts.", "quantifier": "all inputs, all appended data, all thread counts", "why_tests_cant": "Quantifies over all continuations.", "anchors": ["lib/src/stream/mod.rs:encode_stream", "lib/src/block/rle.rs:rle"]}
{"id": "C62", "title": "Debug and release builds agree", "statement": "Whenever decode_stream does not panic in a build with overflow checks, a release build (wrapping arithmetic) does exactly the same: same outcome, same bytes written. Where the checked build panics the release build may go on, but what the checked build had written is then a prefix of what the release build writes.", "quantifier": "all readers, writers, inputs", "why_tests_cant": "Quantifies over all inputs, and over two builds.", "anchors": ["lib/src/stream/mod.rs:decode_stream", "lib/src/block/selectors.rs:read_unary", "lib/src/block/code_table.rs:read_delta", "lib/src/bitwise/bitwriter.rs:increment_symbol"]}
{"id": "C63", "title": "The decoder's guarantees hold in release builds", "statement": "Also without overflow checks: only blocks whose stored CRC matches are written; Ok on a prefix means the same result on the whole input; output on a prefix is a prefix of the output; a panic happens only inside a block; decoding terminates; wrong magic is refused with no output; only the bytes delivered matter, and a read error is not taken for completeness; what encode_stream wrote (single table) never makes it panic, and a failed round trip is reported; every crash point while writing is safe.", "quantifier": "all readers, inputs, prefixes", "why_tests_cant": "Quantifies over all inputs, including those on which arithmetic wraps around.", "anchors": ["lib/src/stream/mod.rs:decode_stream", "lib/src/block/block_decoder.rs:decode_block"]}
{"id": "C64", "title": "The reader stands behind the stream after decoding", "statement": "decode_stream(&mut reader, ..) takes no byte behind the stream from the reader, and after Ok the reader stands right behind the stream, so that what follows (another stream, other data) can be read from it.", "quantifier": "all readers (any read sizes), all streams, all data behind the stream", "why_tests_cant": "Quantifies over all streams and all that may follow.", "anchors": ["lib/src/stream/mod.rs:decode_stream", "lib/src/bitwise/bitreader.rs:BitReaderImpl"]}
{"id": "C65", "title": "The input ends at the first end of file", "statement": "What encode_stream compresses is what the reader delivers before it first reports end of file, whatever it would deliver later (terminals, growing files), and whatever the number of threads.", "quantifier": "all readers that never fail, including those that go on after an end of file; all thread counts and strategies", "why_tests_cant": "Quantifies over all reader behaviours.", "anchors": ["lib/src/stream/mod.rs:encode_stream"]}
{"id": "C66", "title": "Nothing is invented", "statement": "Whatever the reader does (errors, ends of file followed by more data, any read sizes): if encode_stream ends normally, the content of its output consists of bytes the reader delivered, in that order, each at most once.", "quantifier": "all readers, thread counts, strategies", "why_tests_cant": "Quantifies over all reader behaviours.", "anchors": ["lib/src/stream/mod.rs:encode_stream"]}
{"id": "C67", "title": "Command-line options do what they say", "statement": "What the command line tool writes does not depend on --threads (1 or more) or on the number of processors. Without a subcommand, and with the subcommand single, every block has two code tables of which only the first is used; with k-means every block has as many code tables as --num-tables says (1 to 7, 6 by default), and with --iterations 0 only the first of them is used. decompress writes what the library decodes the file to, with exit status 0, and panics if the library does not decode it.", "quantifier": "all files, all option values in range, all numbers of processors, all environments in which the files can be opened", "why_tests_cant": "Quantifies over all files and option values.", "anchors": ["cli/src/main.rs:try_main", "lib/src/stream/mod.rs:encode_stream", "lib/src/block/block_encoder.rs:generate_block_data"]}
{"id": "C68", "title": "BlockWise tables come from k-means clustering", "statement": "With EncodingStrategy::BlockWise the code tables of every block, and the table each group of 50 symbols uses, come from num_iterations rounds of Lloyd's algorithm on the symbol counts of the groups: num_clusters clusters that start as consecutive shares of the groups, every group goes in each round to a nearest centre (up to 0.01% of the squared distance), every centre is the mean of its groups (up to 1%), every code table is nearly optimal for its centre. The f32 arithmetic this uses is correctly rounded in the model.", "quantifier": "all data, thread counts, 1 to 7 clusters, any number of iterations from 1", "why_tests_cant": "Quantifies over all data and iteration counts, and over rounding errors.", "anchors": ["lib/src/block/symbol_statistics/kmeansclustering.rs:KMeansProblem::solve", "lib/src/block/symbol_statistics/kmeansclustering.rs:euclidean_distance", "lib/src/block/symbol_statistics/mod.rs:BlockWisePropabilityMap", "cli/src/main.rs:try_main"]}
{"id": "C69", "title": "The single code is nearly optimal, and the size follows the alphabet", "statement": "With EncodingStrategy::Single every block is written with one prefix code that is, for the symbols of the block, as good as any code of at most 17 bits up to the increase of the frequencies by 0, 1, 2, ... that the construction makes. So data with k different bytes (k + 2 <= 2^L) and no byte four times in a row takes at most L + 1/50 bits per byte, and a number of bits per block that depends on k alone.", "quantifier": "all data, thread counts, all competing codes", "why_tests_cant": "Quantifies over all data and all codes.", "anchors": ["lib/src/block/symbol_statistics/mod.rs:SinglePropabilityMap", "lib/src/block/huffman/huffman_internal.rs:compute_huffman", "lib/src/block/block_encoder.rs:generate_block_data", "lib/src/stream/mod.rs:encode_stream"]}
{"id": "C70", "title": "The complete blocks of a damaged file are recovered", "statement": "A compressed file that was cut off or damaged loses only what comes after the damage: decoding writes exactly the contents of the blocks that are complete, and whatever happens to the file after byte n, the blocks lying in its first n bytes are still written. After compress was interrupted by write errors, decompressing the output file gives a prefix of the data, and Ok only with all of it.", "quantifier": "all files that start with a stream header, all cut positions, all continuations after the damage; all compress runs and all behaviours of the output file", "why_tests_cant": "Every byte position and every damage would have to be tried.", "anchors": ["lib/src/stream/mod.rs:decode_stream", "lib/src/block/block_decoder.rs:decode_block", "cli/src/main.rs:try_main"]}
{"id": "C71", "title": "Floating-point arithmetic never leaves the normal range", "statement": "The f32 computations of the encoder (selector count, k-means distances, running means, conversion of the means to frequencies) never overflow, never produce NaN or a subnormal number and never saturate a conversion, for any data, any number of clusters and iterations: the output is the one obtained with unlimited exponents.", "quantifier": "all data, readers, writers, thread counts and strategies", "why_tests_cant": "Ranges over all data; overflow or NaN could need one particular distribution of symbols after many iterations.", "anchors": ["lib/src/block/symbol_statistics/kmeansclustering.rs:solve", "lib/src/block/symbol_statistics/kmeansclustering.rs:euclidean_distance", "lib/src/block/symbol_statistics/mod.rs:finalize", "lib/src/stream/mod.rs:encode_stream"]}
{"id": "C72", "title": "Killed at any moment", "statement": "If the process is killed at any moment while encode_stream runs, what has reached the output is a prefix of what would have been written; of the data read so far, decoding the output gives back all but at most the last threads + 1 blocks (data that round-trips, single table), what it gives is always a prefix of the data, and decoding succeeds only with all of it. At every moment what has been read is what has been written plus at most one block per thread.", "quantifier": "all moments of all executions: all schedules, readers, thread counts, data; all amounts of output that reached the file", "why_tests_cant": "Every kill point under every schedule would have to be tried.", "anchors": ["lib/src/stream/mod.rs:encode_stream", "lib/src/stream/mod.rs:WorkerThread", "lib/src/stream/mod.rs:decode_stream"]}
{"id": "C73", "title": "All threads work at the same time, in rounds", "statement": "encode_stream with t threads is parallel: for every round there is a schedule in which the t blocks of the round (as many as there are) are all being compressed at the same time. It works in rounds: no block is read before all blocks of the earlier rounds have been written, so one slow block holds up all threads.", "quantifier": "all data, strategies with at least one table, thread counts, rounds; for the second part all states of all executions", "why_tests_cant": "Depends on the schedule; tests see the schedules that happen to occur.", "anchors": ["lib/src/stream/mod.rs:encode_stream", "lib/src/stream/mod.rs:WorkerThread"]}
{"id": "C74", "title": "Damaged magic numbers and block checksums are detected", "statement": "Let a file agree with a stream that decode_stream accepts up to the beginning of one of its blocks, or of the end-of-stream magic. If the magic number there is damaged into anything but the other magic number (always, if at most 19 bits are flipped), or the checksum of the block is damaged, decode_stream returns Err and has written exactly the blocks before. Only if a block magic turns into the end-of-stream magic the rest is lost silently. Both builds.", "quantifier": "all accepted streams, all blocks, all damaged values, everything that may follow", "why_tests_cant": "2^48 values of every magic number and 2^32 of every checksum, in every stream.", "anchors": ["lib/src/stream/mod.rs:decode_stream", "lib/src/stream/mod.rs:what_next", "lib/src/block/block_decoder.rs:decode_block"]}
{"id": "C75", "title": "The recursions of the encoder are shallow", "statement": "Compressing never nests calls deeply, whatever the data: sorting the suffixes of a block of at most 2^k bytes nests at most k+1 calls of the sort (21 for any block the encoder builds), and the trees that compute the code lengths have at most 18 levels and together hold at most 17 coins per symbol, so the number of nested calls is bounded by a constant however the data is chosen.", "quantifier": "every byte string, every exponent k, every list of weights and every length limit", "why_tests_cant": "the depth depends on the data; a test tries few strings, and an adversarial one could be missed", "anchors": ["lib/src/block/bwt/sais.rs:orchestrate_build_suffix_array", "lib/src/block/bwt/sais.rs:build_summary_suffix_array", "lib/src/block/huffman/package_merge.rs:CoinEntry::flatten", "lib/src/block/huffman/package_merge.rs:package_merge"]}
{"id": "C76", "title": "Random hash seeds do not matter", "statement": "The only source of randomness in the program is the order in which a HashMap (of coins by denomination) is visited, which depends on a seed drawn at run time. The code lengths, and so the output, are the same for every order.", "quantifier": "all orders in which the map can be visited, all coins, weights and length limits", "why_tests_cant": "the seed changes from run to run; a test that passes once says nothing about the other seeds", "anchors": ["lib/src/block/huffman/package_merge.rs:package_merge", "lib/src/block/huffman/package_merge.rs:compute_lis"]}
{"id": "C77", "title": "Block sorting takes linear time", "statement": "No input makes the Burrows-Wheeler stage slow: on every block of n bytes all its loops (search for the rotation, suffix sort with its recursion and block comparisons, output) together run at most 77 n + 1600 times, and at most 37 n + 2400 times on blocks of the encoder's size.", "quantifier": "every non-empty byte string", "why_tests_cant": "the worst case depends on repetitions in the data; nested loops look fast on typical data and tests do not find the bad cases", "anchors": ["lib/src/block/bwt/duval.rs:duval", "lib/src/block/bwt/sais.rs:orchestrate_build_suffix_array", "lib/src/block/bwt/sais.rs:are_lms_blocks_equal", "lib/src/block/bwt/bwt_internal.rs:bwt"]}
{"id": "C78", "title": "How a cut-off file ends", "statement": "A file that decode_stream accepts is cut off after n bytes. If the end-of-stream magic is complete the result is still Ok. Otherwise decode_stream panics if the cut lies in one of the blocks (behind its magic number and before its end, but not directly behind its checksum), and returns Err at every other place (in the stream header, in a magic number, directly behind a checksum, at the end of a block). Both builds. Together with C70 this says exactly what a truncated download does.", "quantifier": "all accepted files, all lengths n", "why_tests_cant": "Every file has as many truncations as bytes, and the alignment of its blocks to bytes differs from file to file.", "anchors": ["lib/src/stream/mod.rs:decode_stream", "lib/src/stream/mod.rs:what_next", "lib/src/block/block_decoder.rs:decode_block", "lib/src/bitwise/bitreader.rs:BitReader"]}
{"id": "C79", "title": "A valid stream is decoded or refused, never misread", "statement": "For every valid bzip2 stream, from any encoder and whatever follows it: decode_stream does not panic; it writes, for some number of blocks from the start, data with the checksums of these blocks, and returns Ok exactly if these are all the blocks of the stream, Err otherwise. So a file that cannot be handled is reported, and success means that the data is right unless two different blocks have the same checksum. Both builds.", "quantifier": "all valid streams, all data behind them", "why_tests_cant": "Which valid files another encoder may write is not limited by what the test suite has at hand.", "anchors": ["lib/src/stream/mod.rs:decode_stream", "lib/src/block/block_decoder.rs:decode_block", "lib/src/block/rle.rs:inverse_rle", "lib/src/block/huffman/reader.rs"]}
{"id": "C80", "title": "Compressing takes linear time", "statement": "No input makes compression slow: encode_stream with one table per block and t threads, reading n bytes with c read calls and succeeding, takes at most 1200 n + t (n/720000 + 3) + c + 16100000 steps in all its threads together, counting loop iterations, bytes read and written and copied elements, and n\u00b2 for a sort of n elements; a corresponding linear bound holds for the block-wise strategy. In detail: on every block of n bytes with k different ones, all stages of the encoder together (block sorting, move to front, zero-run encoding, statistics, code tables, writing) take at most (86 + 3 k) n + 223 (k + 2)\u00b2 + 4150 (k + 2) + 6100 steps with one table per block, so at most 854 n + 16000000; the blocks of an input of n bytes together at most 1090 n + 16000000. With c tables from i iterations of the clustering a block takes at most (86 + 4 k) n + (n/50 + 2)(4 c + 4) + i (n/50 + 3)(c + 1)(k + 3) plus a number that depends on c and k only.", "quantifier": "every input, all ways in which a reader without errors delivers it, all writers, all thread counts from 1 on; every non-empty run-length encoded block below 2^20 - 1 bytes; all cluster counts from 1 on, all numbers of iterations, all distance functions", "why_tests_cant": "the worst case depends on the data (long zero runs, skewed frequencies, all codes of maximal length), and timing on samples proves nothing about it", "anchors": ["lib/src/stream/mod.rs:encode_stream", "lib/src/block/rle.rs:rle", "lib/src/bitwise/bitwriter.rs:BitWriterImpl", "lib/src/block/block_encoder.rs:generate_block_data", "lib/src/block/mtf.rs:mtf", "lib/src/block/zle.rs:zle_transform", "lib/src/block/huffman/package_merge.rs:compute_lis", "lib/src/block/symbol_statistics/kmeansclustering.rs:solve"]}
{"id": "C81", "title": "Decompressing takes linear time, up to the logarithm of sorting", "statement": "No compressed file makes decompression slow in relation to its size and the size of what it decompresses to: when decode_stream succeeds, having read a stream of m bytes and written n bytes, it has taken at most 528800 m + n (2 log2 n + 701) steps, counting loop iterations, bits read and copied elements, and s (log2 s + 1) for the sort of s elements; a block of c bits with n bytes takes at most 66100 c + n (2 log2 n + 700). (The factor of m is the price of the search of a code in a table of up to 258 entries after each bit.)", "quantifier": "all streams that decode, whoever made them, all ways in which the reader splits them, all writers that accept what they are given", "why_tests_cant": "the worst case is an adversarial stream: long codes at the end of the table, long unary numbers, many blocks; timing on samples proves nothing about it", "anchors": ["lib/src/stream/mod.rs:decode_stream", "lib/src/block/block_decoder.rs:decode_block", "lib/src/block/huffman/reader.rs:read_symbols", "lib/src/block/zle.rs:decode_zle", "lib/src/block/bwt/bwt_inverse.rs:inverse_bwt", "lib/src/block/rle.rs:inverse_rle"]}
{"id": "C82", "title": "Standard output is left alone", "statement": "decode_stream prints nothing on standard output, so that a program can decompress to it. (It does not hold: a line is printed on damaged input, after the good blocks were written. What holds: nothing is printed on success or panic; at most one line otherwise; \"Not a valid bz2 file\" exactly for inputs of four bytes or more that do not begin with BZh; \"Expected block start or stream end\" exactly if, after the blocks that were written, 48 bits follow that are neither magic number.)", "quantifier": "all inputs, all ways of delivering them, debug and release builds", "why_tests_cant": "the line depends on where in the stream damage is found, and tests do not look at standard output", "anchors": ["lib/src/stream/mod.rs:read_file_header", "lib/src/stream/mod.rs:what_next", "lib/src/stream/mod.rs:decode_stream"]}
{"id": "C83", "title": "decompress writes where the README says", "statement": "ribzip2 decompress file.bz2 writes its output to file.out. (It does not hold: the output is in file. What holds: for every path, a decompress of path.bz2 that is not refused creates path, which did not exist, and changes no other name.)", "quantifier": "all paths that end in a file name, all file systems and file contents", "why_tests_cant": "a test shows it for the names it uses; the claim is about all names", "anchors": ["cli/src/main.rs:try_main", "README.md"]}
{"id": "C84", "title": "A refused run says why", "statement": "When the command line program ends with status 1 it prints exactly one line on standard error: it is about the first argument that was not processed, all arguments before it having been processed successfully, and says that the output exists, with the name of the output, exactly if the input could be opened and the output was found; otherwise it is the system's error about the input, or about the output that cannot be created. With any other status it prints no such line.", "quantifier": "both commands, all lists of arguments, all file systems, all interference by other processes", "why_tests_cant": "the message depends on the state of the file system at three moments and on the outcome of all earlier arguments", "anchors": ["cli/src/main.rs:FileError", "cli/src/main.rs:create_file", "cli/src/main.rs:open_file", "cli/src/main.rs:main"]}
{"id": "C85", "title": "Only bzip2 streams are accepted", "statement": "When decode_stream succeeds, what it has read is a valid bzip2 stream for the data it has written. (It does not hold. What holds: it is, or it deviates from the format in one of these ways and no other: the level is not 1 to 9; a block has the flag of randomised blocks, announces an empty range of byte values, has 0, 1 or 7 code tables or no selectors, code lengths outside of 1 to 20 or without a prefix code, an end-of-block symbol missing or before the last group, is too large, or is no transform of any block; something else than the checksum of the blocks and up to seven zero bits follows the end-of-stream magic; or a repeat count of the run-length encoding is followed by three bytes equal to it, which the format allows but is decoded differently; and in release builds, in addition, a selector coded with 256 or more ones or a code length that passes below 0.)", "quantifier": "all inputs, of any length, debug and release builds", "why_tests_cant": "there are more damaged or crafted streams than any corpus has, and only an exhaustive account of the parser shows that nothing else slips through", "anchors": ["lib/src/stream/mod.rs:decode_stream", "lib/src/block/block_decoder.rs:decode_block", "lib/src/block/symbol_map.rs", "lib/src/block/huffman/reader.rs", "lib/src/block/huffman/mod.rs"]}
{"id": "C86", "title": "Blocks are self-contained", "statement": "The files decode_stream accepts consist of blocks that can be put together to other files: in any order, any number of times, from different files, at any bit position, under any level and with any stream checksum; decode_stream then succeeds and writes the contents of these blocks in this order. And a file is compressed block by block: each block of the output of encode_stream is, bit by bit, the only block of what encode_stream makes, with any number of threads, of the content of the block alone.", "quantifier": "all lists of accepted files, all lists of their blocks; all inputs, strategies and thread counts; debug and release builds of the decoder", "why_tests_cant": "tools that split, join or repair files rely on it for all files; tests have a few, and state that leaks from one block to the next shows with some combinations only", "anchors": ["lib/src/stream/mod.rs:decode_stream", "lib/src/stream/mod.rs:encode_stream", "lib/src/block/block_decoder.rs:decode_block", "lib/src/block/block_encoder.rs:generate_block_data"]}
{"id": "C87", "title": "The compressed file does not depend on the machine", "statement": "On machines with 32, 64 or more bits per word, in builds with and without overflow checks, encode_stream makes the same calls of the writer with the same bytes and has the same result, as long as the strategy asks for at most 131072 tables: no number in it overflows. With the single-table strategy and a writer that works it never panics.", "quantifier": "all word sizes of at least 32 bits, all readers, writers, thread counts and strategies with up to 131072 tables", "why_tests_cant": "sums of frequencies, package weights and products of the clustering overflow only with large or special blocks, and tests run on one machine", "anchors": ["lib/src/stream/mod.rs:encode_stream", "lib/src/block/huffman/package_merge.rs:package_merge", "lib/src/block/huffman/huffman_internal.rs:compute_huffman", "lib/src/block/symbol_statistics/kmeansclustering.rs:solve", "lib/src/block/zle.rs:zle_transform"]}
{"id": "C88", "title": "What a file decompresses to does not depend on the machine", "statement": "decode_stream has the same result on machines with 32 and with 64 bits per word. (It does not hold for crafted streams, in both directions. What holds: all valid streams that C34 covers, and all output of encode_stream that C01 covers, made on any machine, decompress to their content on every machine with 32 to 64 bits; and a result of less than 2^29 bytes is also the result of every smaller machine that does not panic.)", "quantifier": "all inputs; all word sizes from 32 to 64 bits", "why_tests_cant": "tests run on one machine; the differences need particular code lengths or runs", "anchors": ["lib/src/stream/mod.rs:decode_stream", "lib/src/block/zle.rs:decode_zero_amount", "lib/src/bitwise/bitwriter.rs:increment_symbol", "lib/src/bitwise/bitwriter.rs:convert_to_number", "lib/src/block/code_table.rs:read_delta"]}
{"id": "C89", "title": "Decoding keeps pace with its input", "statement": "decode_stream can be used on a pipe: each block is written, by one call of the writer, as soon as the byte with its last bit has arrived; no later byte is asked for before. So nothing is held back if the sender pauses, and never more than one block is held.", "quantifier": "all inputs (also those that turn out damaged later), all ways of delivering them, all writers, debug and release builds", "why_tests_cant": "reading ahead shows only with a reader that blocks at the critical byte, for every block and bit position", "anchors": ["lib/src/stream/mod.rs:decode_stream", "lib/src/block/block_decoder.rs:decode_block", "lib/src/bitwise/bitreader.rs:read_bits"]}
{"id": "C90", "title": "Runs at the same time do not disturb each other", "statement": "Several runs of the program may be under way at the same time: files that were there are not changed, and a run that ends without a message leaves the output it would have left alone. (It does not hold if two runs have the same output path and both look for it before one creates it: the output may then be a mixture, or be emptied after a run has ended with status 0. What holds in every interleaving: existing files stay; runs with different output paths do not disturb each other; runs with the same output path that write the same bytes leave exactly these bytes when all have ended.)", "quantifier": "all numbers of runs, all commands, files and answers of the system, all interleavings of their system calls and of every single byte written", "why_tests_cant": "tests run one schedule; the window between exists() and File::create is microseconds wide", "anchors": ["cli/src/main.rs:open_file", "cli/src/main.rs:create_file", "cli/src/main.rs:try_main"]}
{"id": "C91", "title": "Compressing keeps pace with its input", "statement": "encode_stream can be used on a pipe: a block that is complete is compressed and written before more data is asked for. (It holds for one thread only. With t threads the blocks are written in rounds: when the reader is asked for data of block n, exactly the first (n / t) * t blocks are written, so up to t - 1 blocks that are complete and compressed are held back until more data comes.)", "quantifier": "all inputs of any number of blocks, all ways of delivering them without errors, all thread counts, all schedules of the threads, all strategies with at least one table", "why_tests_cant": "holding back shows only with a reader that blocks in the middle of the data, and depends on the schedule of the threads", "anchors": ["lib/src/stream/mod.rs:encode_stream", "lib/src/stream/mod.rs:flush_work_buffer", "lib/src/stream/mod.rs:send_work"]}
{"id": "C92", "title": "The installed program does what the tested one does", "statement": "The command line program is tested with overflow checks (cargo test) and installed without (cargo install). Whatever the arguments, options, files and other processes: unless the checked build panics, the release build leaves the same files and has the same status. For one argument: if the library does not panic on the input, both do the same; both refuse the same arguments; they never differ in names or in other files than the output, and what the checked build writes into it is the beginning of what the release build writes. For every behaviour of the output file the release build has status 0 exactly if the library succeeds and no write failed, and the file holds what the writes took; a file that comes back from compress and decompress with the one build comes back with the other.", "quantifier": "all command lines, file systems, file contents, behaviours of reads and writes, interference by other processes", "why_tests_cant": "tests run with overflow checks and never see the installed program", "anchors": ["cli/src/main.rs:try_main", "lib/src/stream/mod.rs:decode_stream"]}
{"id": "C93", "title": "An unreadable input is reported", "statement": "If the input cannot be read, or not to its end (a directory given by mistake, a failing disk, a network file system that comes and goes), the program says so and ends with a status other than 0. (It does not hold for compress: if reads keep failing the program never ends, for a directory it leaves an empty output file; after an error that does not come back the status is 0 and up to 719999 bytes before the error are missing, that is, a small file comes back empty. What holds: if reads keep failing the status is never 0; each error costs at most the 719999 bytes before it; decompress, in both kinds of build, panics on a directory, and if it ends with status 0 in spite of an error, it does the same without the error.)", "quantifier": "all files, all points at which reads fail, all ways the reads are split, all options, thread counts and write behaviours, debug and release builds", "why_tests_cant": "tests read regular files whose reads do not fail", "anchors": ["cli/src/main.rs:try_main", "cli/src/main.rs:open_file", "lib/src/stream/mod.rs:encode_stream", "lib/src/stream/mod.rs:decode_stream"]}
{"id": "C94", "title": "Many files in one command", "statement": "A command line with many files treats each as if it were the only one: if each file by itself comes back from the library, then compressing all of them with one command, deleting them and decompressing all with one command brings all of them back, in both kinds of build; every other file is as it was and only the .bz2 files are new. If one of the compressed files is damaged, decompress stops there: the files before it are back, no .bz2 file is changed, and nothing behind it is touched.", "quantifier": "all file systems, all numbers of files in any directories, all contents the library gets back, all strategies and thread counts, all ways the reads are split", "why_tests_cant": "interference between arguments (names that collide, files that are overwritten by a later argument) depends on the names and the number of files", "anchors": ["cli/src/main.rs:try_main", "cli/src/main.rs:create_file"]}
{"id": "C95", "title": "An interrupted run is noticed", "statement": "If the program is killed at any moment, the files that were there are unchanged, and what is at the path of the output is nothing or the beginning of what would have been written; what is left cannot be taken for a complete output. For compress: given what is left, decompress (of either build) panics having written a beginning of the content, or ends with status 0 having written all of it. (It does not hold for decompress: the output is written under its final name from the start, so what a killed run leaves is what a run on another file leaves when it has ended with status 0; and the same command, given again, refuses because the output exists.)", "quantifier": "all files, all moments at which a run can be killed (system calls and single bytes written), all commands, thread counts, strategies and write behaviours, debug and release builds", "why_tests_cant": "a kill can come between any two bytes of any output", "anchors": ["cli/src/main.rs:try_main", "cli/src/main.rs:create_file", "lib/src/stream/mod.rs:decode_stream"]}
{"id": "C96", "title": "Symbolic links", "statement": "Whatever symbolic links there are (to files, to links, to nothing, in circles, more than the system follows), a run changes no file that was there, no name that was there and nothing that can be read through any path; there is at most one new file for each argument; it holds what the command writes for the content to which the argument leads, and is read back through the path of the output; and the output is at that path itself. (The last part does not hold: if the path of the output is a link that points nowhere, exists() says no and File::create follows the link, so the output is written to the place the link names, anywhere in the file system. It holds if the path of the output is not a link.) Without links this is the same program.", "quantifier": "all file systems with links, all commands, all lists of arguments, all behaviours of reads and writes", "why_tests_cant": "tests run in directories without links; who can create names in a directory can choose the link", "anchors": ["cli/src/main.rs:create_file", "cli/src/main.rs:open_file", "cli/src/main.rs:try_main"]}
