#!/usr/bin/env python3
"""Source of properties.jsonl (one JSON object per property)."""
import json
P=[]
def p(title, statement, quantifier, why, anchors):
    P.append(dict(id=f"C{len(P)+1:02d}", title=title, statement=statement, quantifier=quantifier, why_tests_cant=why, anchors=anchors))
L="lib/src/"
p("Compress/decompress round trip (single table)",
  "For every byte string d and every number of worker threads >= 1, running decode_stream on the bytes written by encode_stream(d, threads, EncodingStrategy::Single) returns Ok and writes exactly d.",
  "all byte strings of any length, all thread counts >= 1",
  "Round-trip tests sample a handful of files; the failures live in the relation between where the smallest suffix of a block lies and the rest of the block, and between run lengths and neighbouring byte values.",
  [L+"stream/mod.rs:encode_stream", L+"stream/mod.rs:decode_stream"])
p("Output independent of thread count and schedule",
  "For every input and strategy, every interleaving of the main thread with the worker threads, and every thread count >= 1, encode_stream writes the same bytes, equal to those of encoding the blocks one after the other.",
  "all inputs, all strategies, all thread counts >= 1, all interleavings",
  "A test run observes a few schedules of a few thread counts.",
  [L+"stream/mod.rs:WorkerThread", L+"stream/mod.rs:encode_stream"])
p("encode_stream terminates without deadlock",
  "For every reader that reaches end of file and every thread count >= 1, encode_stream finishes under every schedule: no reachable state is stuck and no execution is infinite.",
  "all inputs and reader scripts ending in end of file, all thread counts >= 1, all schedules",
  "Deadlock freedom and termination quantify over every schedule and over infinitely many states.",
  [L+"stream/mod.rs:encode_stream", L+"stream/mod.rs:WorkerThread"])
p("Result does not depend on how the reader splits its data",
  "encode_stream's output depends only on the concatenation of the bytes the reader delivers, not on the sizes of the individual reads or on Interrupted results between them.",
  "all splittings of all inputs into non-empty reads, with any number of Interrupted results anywhere",
  "There are exponentially many splittings of each input.",
  [L+"stream/mod.rs:encode_stream"])
p("A read error never silently drops data",
  "If the reader reports an error, encode_stream does not finish normally having omitted bytes the reader delivered.",
  "all readers, with errors at any point",
  "Fault positions are unbounded; the loss only occurs when the error follows delivered data inside one refill.",
  [L+"stream/mod.rs:encode_stream (lines 136-147)"])
p("Container layout",
  "Every output of encode_stream is: the bytes BZh9, then the blocks each beginning with the 48-bit block magic and the block CRC, then the 48-bit footer magic and the 32-bit combined CRC of all block CRCs in order, then fewer than 8 zero bits of padding.",
  "all inputs, strategies and thread counts",
  "The layout is bit- rather than byte-aligned and block lengths vary, so a test sees only the alignments it happens to produce.",
  [L+"stream/mod.rs:file_header", L+"stream/mod.rs:stream_footer", L+"block/block_encoder.rs:block_header", L+"bitwise/bitwriter.rs:BitWriterImpl"])
p("Blocks respect the declared block size",
  "Every block encode_stream emits under the header BZh9 holds at most 900000 bytes after run-length encoding, the limit every bzip2 decoder enforces for level 9.",
  "all inputs",
  "Violations need inputs of more than 800 kB with particular runs at one refill boundary.",
  [L+"stream/mod.rs:encode_stream (RLE_LIMIT, to_take)", L+"block/rle.rs:rle_total_size"])
p("Block splitting loses, duplicates and reorders nothing",
  "The blocks encode_stream cuts the input into are non-empty and their concatenation, in the order they are written, is the input.",
  "all inputs, all thread counts >= 1",
  "The cut points depend on the run structure of the whole prefix; the refill size can approach zero near the limit, where a zero-length refill would look like end of file.",
  [L+"stream/mod.rs:encode_stream", L+"block/rle.rs:rle"])
p("Run-length stage can be undone by this library",
  "For every byte string d, inverse_rle of the run-length encoding of d is d.",
  "all byte strings",
  "Needs a run of four or more followed by bytes equal to the run's count byte.",
  [L+"block/rle.rs:rle", L+"block/rle.rs:rle_augment", L+"block/rle.rs:inverse_rle"])
p("Run-length stage produces standard bzip2 RLE1, independent of refills",
  "For every byte string, however it is cut into refills, the run-length stage produces the same output, and the standard RLE1 decoder (four equal bytes then a repeat count, then a fresh start) maps it back to the input; the size predicted by rle_total_size is its exact length.",
  "all byte strings, all ways of cutting them into refills",
  "State (counter, last byte) is carried across arbitrary cut points.",
  [L+"block/rle.rs:rle", L+"block/rle.rs:rle_total_size", L+"block/rle.rs:rle_augment"])
p("CRC is the bzip2 CRC-32",
  "For every byte string, crc32 returns the CRC computed bit by bit with polynomial 0x04C11DB7, most significant bit first, initial value and final xor all ones.",
  "all byte strings",
  "A table entry that is wrong shows only for inputs that reach that entry.",
  [L+"block/crc32.rs:crc32"])
p("CRC detects every burst of up to 32 bits and any two flipped bits",
  "Two byte strings of the same length that differ, and differ only inside a window of 32 consecutive bits (or of four bytes), or in exactly two bits, anywhere in up to 512 MiB (more than any block holds), have different CRCs.",
  "all byte strings, all window positions, all pairs of positions, all differing contents",
  "2^64 pairs of windows per prefix and suffix.",
  [L+"block/crc32.rs:crc32"])
p("Decoded blocks are checked against their CRC",
  "If decode_stream returns Ok on any input whatever, everything it wrote is a concatenation of blocks, each of whose CRC equals the CRC stored in the input for that block; a block whose CRC does not match is not written and makes the call fail.",
  "all input byte strings, well-formed or not",
  "Malformed inputs are unbounded.",
  [L+"block/block_decoder.rs:decode_block", L+"stream/mod.rs:decode_stream"])
p("decode_stream checks the whole-stream checksum",
  "decode_stream returns Ok only if the combined CRC in the stream footer matches the blocks decoded.",
  "all input byte strings",
  "Needs corrupted footers behind valid blocks.",
  [L+"stream/mod.rs:decode_stream"])
p("A truncated stream is never reported as complete",
  "If decode_stream returns Ok on a prefix of a stream (a file cut short by a crash at any byte), then it returns Ok with the very same output on the whole stream.",
  "all streams, all cut points",
  "Every crash point of every file.",
  [L+"stream/mod.rs:decode_stream", L+"bitwise/bitreader.rs:BitReaderImpl"])
p("Data already written before a failure is a prefix of the truth",
  "Whatever decode_stream has written when it fails on a prefix of a stream is a prefix of what it writes on the whole stream.",
  "all streams, all cut points",
  "Every crash point of every file.",
  [L+"stream/mod.rs:decode_stream", L+"block/block_decoder.rs:decode_block"])
p("decode_stream never panics",
  "For every input byte string decode_stream returns Ok or Err; malformed or truncated input gives Err, not a panic.",
  "all input byte strings",
  "Malformed inputs are unbounded.",
  [L+"block/block_decoder.rs:decode_block", L+"stream/mod.rs:decode_stream"])
p("decode_stream terminates",
  "decode_stream stops on every finite input, after consuming at most the bits it contains.",
  "all input byte strings",
  "Non-termination cannot be observed by a test.",
  [L+"stream/mod.rs:decode_stream", L+"block/huffman/reader.rs:read_symbols", L+"block/selectors.rs:read_unary", L+"block/code_table.rs:read_delta"])
p("Concatenated streams decode to concatenated data",
  "Decoding the concatenation of two complete bzip2 files yields the concatenation of their contents, as bunzip2 does.",
  "all pairs of streams",
  "Quantifies over pairs of arbitrary streams.",
  [L+"stream/mod.rs:decode_stream"])
p("Move-to-front round trip",
  "For every byte string, the move-to-front stage followed by its inverse with the transmitted set of used bytes gives the string back, and every index emitted is smaller than the number of distinct bytes.",
  "all byte strings",
  "Unbounded input; index 255 needs all 256 byte values.",
  [L+"block/mtf.rs:mtf", L+"block/mtf.rs:inverse_mtf"])
p("Zero-run stage round trip",
  "For every byte string (with runs of zeros of any length that a usize can count), the zero-run encoding followed by decoding gives the string back.",
  "all byte strings with fewer than 2^63 bytes",
  "Runs of every length in every position.",
  [L+"block/zle.rs:zle_transform", L+"block/zle.rs:decode_zle"])
p("Symbol map round trip",
  "For every set of used bytes, reading the transmitted symbol map back gives exactly that set in increasing order and consumes exactly the bits written.",
  "all 2^256 sets of bytes, any following bits",
  "2^256 sets.",
  [L+"block/symbol_map.rs:get_symbol_table"])
p("Huffman lengths form a complete prefix code within the limit",
  "For every frequency table of the symbols of a block, the computed code lengths are between 1 and 17 (at most the format's 20) and satisfy Kraft's equality, so they are exactly the depths of the leaves of a full binary tree.",
  "all frequency tables with 2 to 258 symbols (all that occur: the end-of-block symbol and 1 to 257 others), all frequencies including zeros and ties",
  "Unbounded frequency tables.",
  [L+"block/huffman/package_merge.rs:compute_lis", L+"block/huffman/huffman_internal.rs:compute_huffman"])
p("Huffman lengths are optimal",
  "Among all prefix codes with lengths at most 17, the computed lengths minimise the total weighted length for the (tie-broken) weights.",
  "all frequency tables of a block (2 to 258 symbols, any frequencies), all competing codes",
  "Quantifies over all codes.",
  [L+"block/huffman/package_merge.rs:package_merge"])
p("Huffman payload decodes uniquely",
  "For every code-length table satisfying Kraft's inequality with lengths at least 1, the canonical codes are prefix-free, and reading the concatenated codes of any symbol sequence returns that sequence and consumes exactly its bits, whatever follows.",
  "all code-length tables, all symbol sequences, all following bits",
  "Unbounded tables and sequences.",
  [L+"block/huffman/huffman_internal.rs:canonicalize", L+"block/huffman/reader.rs:read_symbols"])
p("Code-length tables round trip",
  "For every non-empty sequence of code lengths with the first below 32 and all below 256, reading back the transmitted delta code gives the same sequence and consumes exactly the bits written.",
  "all code-length sequences, any following bits",
  "Unbounded sequences.",
  [L+"block/code_table.rs:encode_bit_lengths", L+"block/code_table.rs:read_delta", L+"block/delta.rs:encode_delta"])
p("Table selectors round trip",
  "For every sequence of table selectors over n tables, decoding the transmitted selectors gives the sequence back.",
  "all selector sequences over 1 to 7 tables",
  "Sequences that skip a table number are rare in tests with large files.",
  [L+"block/selectors.rs:create_selectors", L+"block/selectors.rs:read_unary", L+"block/block_decoder.rs:decode_block"])
p("Compress/decompress round trip (k-means tables)",
  "For every byte string d, every thread count >= 1 and every BlockWise strategy the CLI accepts, decode_stream of encode_stream's output is d.",
  "all byte strings, thread counts, numbers of tables and iterations",
  "Depends on the clustering result of every input.",
  [L+"stream/mod.rs:encode_stream", L+"block/symbol_statistics/mod.rs:BlockWisePropabilityMap", L+"block/symbol_statistics/kmeansclustering.rs:KMeansProblem::solve"])
p("Unsupported table counts are rejected",
  "encode_stream never silently writes a stream its own decoder cannot read because of num_clusters: counts that do not fit the format's 3-bit field are refused or handled.",
  "all values of num_clusters",
  "Unbounded parameter range.",
  [L+"block/block_encoder.rs:generate_block_data", "cli/src/main.rs:EncodingOptions"])
p("BWT is the sorted-rotation transform",
  "For every non-empty byte string the Burrows-Wheeler stage outputs the last column of the lexicographically sorted rotations and the row of the original string.",
  "all non-empty byte strings",
  "The wrong results depend on how a suffix wraps around the end of the block.",
  [L+"block/bwt/bwt_internal.rs:bwt"])
p("Inverse BWT inverts the sorted-rotation transform",
  "For every non-empty byte string, inverse_bwt applied to the last column of its sorted rotations and the row of the string returns the string (periodic strings included).",
  "all non-empty byte strings",
  "Unbounded strings, periodic ones need separate reasoning.",
  [L+"block/bwt/bwt_inverse.rs:inverse_bwt"])
p("Suffix array construction is correct and does not panic",
  "For every byte string, the suffix array construction returns exactly the permutation of positions 0..=n that sorts all suffixes lexicographically (shorter first on ties), with no out-of-range access, underflow or missing entry.",
  "all byte strings of any length",
  "Induced sorting recursion depth and bucket interactions are unbounded.",
  [L+"block/bwt/sais.rs:build_suffix_array"])
p("Rotation step",
  "The rotation chosen before suffix sorting is the lexicographically minimal rotation of the block.",
  "all byte strings",
  "Fails only when the minimal rotation crosses the end of the block.",
  [L+"block/bwt/duval.rs:rotate_duval"])
p("Every valid bzip2 stream decodes",
  "decode_stream returns Ok with the right data on every stream that is valid according to the bzip2 format.",
  "all valid streams from any encoder",
  "Quantifies over all encoders' output.",
  [L+"stream/mod.rs:decode_stream", L+"block/block_decoder.rs:decode_block"])
p("Every emitted block is valid bzip2",
  "Every stream written by encode_stream with the single-table strategy is a valid bzip2 stream for the input, according to a specification of the format that does not mention this library.",
  "all byte strings, all thread counts >= 1",
  "Validity couples every stage.",
  [L+"block/block_encoder.rs:generate_block_data"])
p("Decoder output complete for every Write implementation",
  "If decode_stream returns Ok, the writer has received every decoded byte, also when the writer accepts fewer bytes than offered.",
  "all input streams, all writer behaviours",
  "Writer behaviours are unbounded.",
  [L+"block/block_decoder.rs:decode_block (writer.write)"])
p("Encoder output complete for every Write implementation",
  "If encode_stream returns, the writer has received every byte of the compressed stream.",
  "all inputs, all writer behaviours",
  "Writer behaviours are unbounded.",
  [L+"bitwise/bitwriter.rs:BitWriterImpl::write_bits", L+"bitwise/bitwriter.rs:finalize"])
p("Bits written are the bits read",
  "Whatever sequence of bit groups is written and however the reads are sized, reading the produced bytes yields the same bits in order, followed by fewer than 8 zero bits, then an error.",
  "all bit sequences, all groupings of writes and reads",
  "All groupings of all sequences.",
  [L+"bitwise/bitwriter.rs", L+"bitwise/bitreader.rs"])
p("encode_stream does not panic",
  "For every input and thread count encode_stream with the single-table strategy never panics (no index, unwrap or arithmetic failure in any stage), given a writer that does not fail.",
  "all byte strings, all thread counts",
  "Panics hide in boundary values (256 distinct bytes, one-byte blocks, full blocks).",
  [L+"block/block_encoder.rs:generate_block_data", L+"stream/mod.rs:encode_stream"])
p("Wrong magic is rejected with no output",
  "If the first four bytes are not B Z h followed by any byte, or fewer than four are available, decode_stream returns Err and writes nothing.",
  "all input byte strings",
  "Unbounded inputs.",
  [L+"stream/mod.rs:read_file_header"])
p("CLI file names round trip",
  "For every file name that names a file, decompressing writes to the name that was compressed: the decompress name of the compress name of f is f.",
  "all file names (any dots, leading dots, trailing dots)",
  "Unbounded names.",
  ["cli/src/main.rs:try_main"])
p("CLI never overwrites an existing file",
  "Neither compress nor decompress changes the content of a file that existed before, whatever other processes do in the meantime.",
  "all file systems, all argument lists, all interleavings with other processes",
  "The race is between exists() and File::create().",
  ["cli/src/main.rs:create_file", "cli/src/main.rs:try_main"])
p("CLI compress success means the output is complete",
  "If compress exits with status 0, the output file holds the whole compressed stream.",
  "all inputs, all write-error positions",
  "Error positions are unbounded; the last buffer is written in a destructor.",
  ["cli/src/main.rs:try_main (BufWriter)"])
p("CLI stops at the first error and leaves later files alone",
  "Files are processed in order, each in the state the earlier ones left; on the first failure nothing is done for the later arguments; the status is 0 exactly if every argument succeeded; each argument changes no path but its output, and a refused argument changes nothing.",
  "all argument lists, all file systems",
  "Unbounded lists and file systems.",
  ["cli/src/main.rs:try_main"])
p("Compressed size is bounded",
  "encode_stream's single-table output is at most a fixed linear function of the input size.",
  "all byte strings",
  "Worst cases are unbounded.",
  [L+"stream/mod.rs:encode_stream", L+"block/block_encoder.rs:generate_block_data"])
p("A failed round trip is reported, not silent",
  "decode_stream on what encode_stream wrote (single-table strategy) never panics and never hangs: it returns an error, or Ok with blocks whose CRCs are those of the blocks of the input.",
  "all byte strings, all thread counts >= 1",
  "Quantifies over every input, including those whose round trip fails.",
  [L+"stream/mod.rs:decode_stream", L+"stream/mod.rs:encode_stream", L+"block/block_decoder.rs:decode_block"])
p("A persistent read error does not hang the encoder",
  "If the reader keeps failing, encode_stream ends (having no way to return an error, by panicking) instead of running forever.",
  "all scripts of reads before the error persists, all thread counts, all schedules",
  "Non-termination cannot be observed by a test.",
  [L+"stream/mod.rs:encode_stream"])
p("Thread count zero does not hang the encoder",
  "encode_stream with num_threads = 0 (which the CLI accepts) ends.",
  "all inputs, all schedules",
  "Non-termination cannot be observed by a test.",
  [L+"stream/mod.rs:encode_stream", "cli/src/main.rs:try_main"])
p("Compression with k-means never panics",
  "encode_stream with the BlockWise strategy and at least one table never panics and never returns an error on a reliable writer, whatever the reader does, for every number of tables (even more than the format allows), iterations and threads.",
  "all reader scripts, all numbers of tables >= 1, iterations, thread counts",
  "u8 counters, the clustering's indices and the selector count depend on every block.",
  [L+"block/symbol_statistics/mod.rs:BlockWisePropabilityMap", L+"block/symbol_statistics/kmeansclustering.rs:KMeansProblem::solve", L+"block/block_encoder.rs:generate_block_data"])
p("CLI decompress success means the output is complete",
  "If decompress exits with status 0, the output file holds everything the stream decodes to.",
  "all streams, all behaviours of the write calls (short writes, errors)",
  "Depends on the result of every single write call.",
  ["cli/src/main.rs:try_main", L+"block/block_decoder.rs:decode_block", L+"stream/mod.rs:decode_stream"])
p("CLI round trip restores the file",
  "compress f, delete f, decompress f.bz2: both exit with status 0 and f is back with the same content.",
  "all file names, all contents, all thread counts and strategies, all ways the reads are split",
  "Unbounded file names and contents.",
  ["cli/src/main.rs:try_main", L+"stream/mod.rs:encode_stream", L+"stream/mod.rs:decode_stream"])
p("A failed CLI run can be repeated",
  "If a run fails (say, because the disk is full or the input is damaged), the same command works once the cause is gone.",
  "all commands, all failures, all file systems",
  "Quantifies over every point at which a run can fail.",
  ["cli/src/main.rs:create_file", "cli/src/main.rs:try_main"])
p("Decoding depends only on the bytes delivered",
  "What decode_stream writes and returns depends only on the bytes the reader delivers before end of file or its first error, not on the sizes of the reads or Interrupted results; and Ok after a read error implies the same Ok without the error.",
  "all reader behaviours, all writers",
  "Unboundedly many ways to split the data and to fail.",
  [L+"bitwise/bitreader.rs:BitReaderImpl", L+"stream/mod.rs:decode_stream"])
p("A stream has one content only",
  "No byte string is a valid bzip2 stream for two different contents, so every conforming decoder restores exactly the input whenever encode_stream wrote a stream that is valid for it.",
  "all byte strings, all contents, all ways to code a block",
  "Quantifies over all other decoders.",
  [L+"stream/mod.rs:encode_stream", L+"block/block_encoder.rs:generate_block_data"])
p("Declared limits are enforced",
  "decode_stream refuses blocks larger than the block size the header declares (and headers that declare none), so that a small stream cannot make it produce or allocate an unbounded amount of data.",
  "all byte strings",
  "The amplification depends on unbounded symbol sequences.",
  [L+"block/block_decoder.rs:decode_block", L+"block/zle.rs:decode_zle", L+"stream/mod.rs:read_file_header"])
p("Every crash point while writing is safe",
  "If the writing of a stream is cut at any byte, decoding what is there either fails after writing a prefix of the input, or returns Ok with exactly the input, the latter only if at most the last 4 bytes (checksum and padding) are missing.",
  "all inputs that round-trip, all crash points",
  "Every prefix of every output.",
  [L+"stream/mod.rs:encode_stream", L+"stream/mod.rs:decode_stream"])
p("Randomised blocks are not misread",
  "A block flagged as randomised is refused or derandomised, not decoded as if the flag were not set.",
  "all blocks",
  "Quantifies over all contents of the block.",
  [L+"block/block_decoder.rs:decode_block"])
p("Compression loses nothing",
  "The bytes encode_stream writes (single table) determine the input: two different inputs never give the same output, for any thread counts, so that the data is recoverable in principle even from outputs no bzip2 decoder restores.",
  "all pairs of inputs",
  "Quantifies over all pairs of inputs.",
  [L+"block/bwt/mod.rs:bwt", L+"block/bwt/duval.rs:rotate_duval", L+"stream/mod.rs:encode_stream"])
p("Memory is bounded by the thread count",
  "At every moment of encode_stream with t threads at most t blocks (queued, being compressed, or waiting to be written) exist, each of at most 900005 bytes before compression, however long the input and however slow reader, writer or workers are.",
  "all readers, writers, thread counts, schedules, moments",
  "Depends on the schedule.",
  [L+"stream/mod.rs:encode_stream", L+"stream/mod.rs:WorkerThread"])
p("No thread is left behind",
  "After encode_stream has ended, normally or by a panic, all its worker threads end too (none blocks forever), and what they still do has no observable effect.",
  "all readers, writers, thread counts, schedules, ways to end",
  "Depends on the schedule and the point of failure.",
  [L+"stream/mod.rs:WorkerThread", L+"stream/mod.rs:encode_stream"])
p("Appending changes only the end of the output",
  "Appending data to an input leaves the beginning of the compressed stream unchanged: the header and all blocks but the last one of the original, i.e. everything but the last 45900255 bytes of the input, for any strategy and thread counts.",
  "all inputs, all appended data, all thread counts",
  "Quantifies over all continuations.",
  [L+"stream/mod.rs:encode_stream", L+"block/rle.rs:rle"])
p("Debug and release builds agree",
  "Whenever decode_stream does not panic in a build with overflow checks, a release build (wrapping arithmetic) does exactly the same: same outcome, same bytes written. Where the checked build panics the release build may go on, but what the checked build had written is then a prefix of what the release build writes.",
  "all readers, writers, inputs",
  "Quantifies over all inputs, and over two builds.",
  [L+"stream/mod.rs:decode_stream", L+"block/selectors.rs:read_unary", L+"block/code_table.rs:read_delta", L+"bitwise/bitwriter.rs:increment_symbol"])
p("The decoder's guarantees hold in release builds",
  "Also without overflow checks: only blocks whose stored CRC matches are written; Ok on a prefix means the same result on the whole input; output on a prefix is a prefix of the output; a panic happens only inside a block; decoding terminates; wrong magic is refused with no output; only the bytes delivered matter, and a read error is not taken for completeness; what encode_stream wrote (single table) never makes it panic, and a failed round trip is reported; every crash point while writing is safe.",
  "all readers, inputs, prefixes",
  "Quantifies over all inputs, including those on which arithmetic wraps around.",
  [L+"stream/mod.rs:decode_stream", L+"block/block_decoder.rs:decode_block"])
p("The reader stands behind the stream after decoding",
  "decode_stream(&mut reader, ..) takes no byte behind the stream from the reader, and after Ok the reader stands right behind the stream, so that what follows (another stream, other data) can be read from it.",
  "all readers (any read sizes), all streams, all data behind the stream",
  "Quantifies over all streams and all that may follow.",
  [L+"stream/mod.rs:decode_stream", L+"bitwise/bitreader.rs:BitReaderImpl"])
p("The input ends at the first end of file",
  "What encode_stream compresses is what the reader delivers before it first reports end of file, whatever it would deliver later (terminals, growing files), and whatever the number of threads.",
  "all readers that never fail, including those that go on after an end of file; all thread counts and strategies",
  "Quantifies over all reader behaviours.",
  [L+"stream/mod.rs:encode_stream"])
p("Nothing is invented",
  "Whatever the reader does (errors, ends of file followed by more data, any read sizes): if encode_stream ends normally, the content of its output consists of bytes the reader delivered, in that order, each at most once.",
  "all readers, thread counts, strategies",
  "Quantifies over all reader behaviours.",
  [L+"stream/mod.rs:encode_stream"])
p("Command-line options do what they say",
  "What the command line tool writes does not depend on --threads (1 or more) or on the number of processors. Without a subcommand, and with the subcommand single, every block has two code tables of which only the first is used; with k-means every block has as many code tables as --num-tables says (1 to 7, 6 by default), and with --iterations 0 only the first of them is used. decompress writes what the library decodes the file to, with exit status 0, and panics if the library does not decode it.",
  "all files, all option values in range, all numbers of processors, all environments in which the files can be opened",
  "Quantifies over all files and option values.",
  ["cli/src/main.rs:try_main", L+"stream/mod.rs:encode_stream", L+"block/block_encoder.rs:generate_block_data"])
p("BlockWise tables come from k-means clustering",
  "With EncodingStrategy::BlockWise the code tables of every block, and the table each group of 50 symbols uses, come from num_iterations rounds of Lloyd's algorithm on the symbol counts of the groups: num_clusters clusters that start as consecutive shares of the groups, every group goes in each round to a nearest centre (up to 0.01% of the squared distance), every centre is the mean of its groups (up to 1%), every code table is nearly optimal for its centre. The f32 arithmetic this uses is correctly rounded in the model.",
  "all data, thread counts, 1 to 7 clusters, any number of iterations from 1",
  "Quantifies over all data and iteration counts, and over rounding errors.",
  [L+"block/symbol_statistics/kmeansclustering.rs:KMeansProblem::solve", L+"block/symbol_statistics/kmeansclustering.rs:euclidean_distance", L+"block/symbol_statistics/mod.rs:BlockWisePropabilityMap", "cli/src/main.rs:try_main"])
p("The single code is nearly optimal, and the size follows the alphabet",
  "With EncodingStrategy::Single every block is written with one prefix code that is, for the symbols of the block, as good as any code of at most 17 bits up to the increase of the frequencies by 0, 1, 2, ... that the construction makes. So data with k different bytes (k + 2 <= 2^L) and no byte four times in a row takes at most L + 1/50 bits per byte, and a number of bits per block that depends on k alone.",
  "all data, thread counts, all competing codes",
  "Quantifies over all data and all codes.",
  [L+"block/symbol_statistics/mod.rs:SinglePropabilityMap", L+"block/huffman/huffman_internal.rs:compute_huffman", L+"block/block_encoder.rs:generate_block_data", L+"stream/mod.rs:encode_stream"])
p("The complete blocks of a damaged file are recovered",
  "A compressed file that was cut off or damaged loses only what comes after the damage: decoding writes exactly the contents of the blocks that are complete, and whatever happens to the file after byte n, the blocks lying in its first n bytes are still written. After compress was interrupted by write errors, decompressing the output file gives a prefix of the data, and Ok only with all of it.",
  "all files that start with a stream header, all cut positions, all continuations after the damage; all compress runs and all behaviours of the output file",
  "Every byte position and every damage would have to be tried.",
  [L+"stream/mod.rs:decode_stream", L+"block/block_decoder.rs:decode_block", "cli/src/main.rs:try_main"])
p("Floating-point arithmetic never leaves the normal range",
  "The f32 computations of the encoder (selector count, k-means distances, running means, conversion of the means to frequencies) never overflow, never produce NaN or a subnormal number and never saturate a conversion, for any data, any number of clusters and iterations: the output is the one obtained with unlimited exponents.",
  "all data, readers, writers, thread counts and strategies",
  "Ranges over all data; overflow or NaN could need one particular distribution of symbols after many iterations.",
  [L+"block/symbol_statistics/kmeansclustering.rs:solve", L+"block/symbol_statistics/kmeansclustering.rs:euclidean_distance", L+"block/symbol_statistics/mod.rs:finalize", L+"stream/mod.rs:encode_stream"])

p("Killed at any moment",
  "If the process is killed at any moment while encode_stream runs, what has reached the output is a prefix of what would have been written; of the data read so far, decoding the output gives back all but at most the last threads + 1 blocks (data that round-trips, single table), what it gives is always a prefix of the data, and decoding succeeds only with all of it. At every moment what has been read is what has been written plus at most one block per thread.",
  "all moments of all executions: all schedules, readers, thread counts, data; all amounts of output that reached the file",
  "Every kill point under every schedule would have to be tried.",
  [L+"stream/mod.rs:encode_stream", L+"stream/mod.rs:WorkerThread", L+"stream/mod.rs:decode_stream"])
p("All threads work at the same time, in rounds",
  "encode_stream with t threads is parallel: for every round there is a schedule in which the t blocks of the round (as many as there are) are all being compressed at the same time. It works in rounds: no block is read before all blocks of the earlier rounds have been written, so one slow block holds up all threads.",
  "all data, strategies with at least one table, thread counts, rounds; for the second part all states of all executions",
  "Depends on the schedule; tests see the schedules that happen to occur.",
  [L+"stream/mod.rs:encode_stream", L+"stream/mod.rs:WorkerThread"])

p("Damaged magic numbers and block checksums are detected",
  "Let a file agree with a stream that decode_stream accepts up to the beginning of one of its blocks, or of the end-of-stream magic. If the magic number there is damaged into anything but the other magic number (always, if at most 19 bits are flipped), or the checksum of the block is damaged, decode_stream returns Err and has written exactly the blocks before. Only if a block magic turns into the end-of-stream magic the rest is lost silently. Both builds.",
  "all accepted streams, all blocks, all damaged values, everything that may follow",
  "2^48 values of every magic number and 2^32 of every checksum, in every stream.",
  [L+"stream/mod.rs:decode_stream", L+"stream/mod.rs:what_next", L+"block/block_decoder.rs:decode_block"])

p("The recursions of the encoder are shallow",
  "Compressing never nests calls deeply, whatever the data: sorting the suffixes of a block of at most 2^k bytes nests at most k+1 calls of the sort (21 for any block the encoder builds), and the trees that compute the code lengths have at most 18 levels and together hold at most 17 coins per symbol, so the number of nested calls is bounded by a constant however the data is chosen.",
  "every byte string, every exponent k, every list of weights and every length limit",
  "the depth depends on the data; a test tries few strings, and an adversarial one could be missed",
  [L+"block/bwt/sais.rs:orchestrate_build_suffix_array", L+"block/bwt/sais.rs:build_summary_suffix_array", L+"block/huffman/package_merge.rs:CoinEntry::flatten", L+"block/huffman/package_merge.rs:package_merge"])
p("Random hash seeds do not matter",
  "The only source of randomness in the program is the order in which a HashMap (of coins by denomination) is visited, which depends on a seed drawn at run time. The code lengths, and so the output, are the same for every order.",
  "all orders in which the map can be visited, all coins, weights and length limits",
  "the seed changes from run to run; a test that passes once says nothing about the other seeds",
  [L+"block/huffman/package_merge.rs:package_merge", L+"block/huffman/package_merge.rs:compute_lis"])

p("Block sorting takes linear time",
  "No input makes the Burrows-Wheeler stage slow: on every block of n bytes all its loops (search for the rotation, suffix sort with its recursion and block comparisons, output) together run at most 77 n + 1600 times, and at most 37 n + 2400 times on blocks of the encoder's size.",
  "every non-empty byte string",
  "the worst case depends on repetitions in the data; nested loops look fast on typical data and tests do not find the bad cases",
  [L+"block/bwt/duval.rs:duval", L+"block/bwt/sais.rs:orchestrate_build_suffix_array", L+"block/bwt/sais.rs:are_lms_blocks_equal", L+"block/bwt/bwt_internal.rs:bwt"])
p("How a cut-off file ends",
  "A file that decode_stream accepts is cut off after n bytes. If the end-of-stream magic is complete the result is still Ok. Otherwise decode_stream panics if the cut lies in one of the blocks (behind its magic number and before its end, but not directly behind its checksum), and returns Err at every other place (in the stream header, in a magic number, directly behind a checksum, at the end of a block). Both builds. Together with C70 this says exactly what a truncated download does.",
  "all accepted files, all lengths n",
  "Every file has as many truncations as bytes, and the alignment of its blocks to bytes differs from file to file.",
  [L+"stream/mod.rs:decode_stream", L+"stream/mod.rs:what_next", L+"block/block_decoder.rs:decode_block", L+"bitwise/bitreader.rs:BitReader"])
p("A valid stream is decoded or refused, never misread",
  "For every valid bzip2 stream, from any encoder and whatever follows it: decode_stream does not panic; it writes, for some number of blocks from the start, data with the checksums of these blocks, and returns Ok exactly if these are all the blocks of the stream, Err otherwise. So a file that cannot be handled is reported, and success means that the data is right unless two different blocks have the same checksum. Both builds.",
  "all valid streams, all data behind them",
  "Which valid files another encoder may write is not limited by what the test suite has at hand.",
  [L+"stream/mod.rs:decode_stream", L+"block/block_decoder.rs:decode_block", L+"block/rle.rs:inverse_rle", L+"block/huffman/reader.rs"])
p("Compressing takes linear time",
  "No input makes compression slow: encode_stream with one table per block and t threads, reading n bytes with c read calls and succeeding, takes at most 1200 n + t (n/720000 + 3) + c + 16100000 steps in all its threads together, counting loop iterations, bytes read and written and copied elements, and n² for a sort of n elements; a corresponding linear bound holds for the block-wise strategy. In detail: on every block of n bytes with k different ones, all stages of the encoder together (block sorting, move to front, zero-run encoding, statistics, code tables, writing) take at most (86 + 3 k) n + 223 (k + 2)² + 4150 (k + 2) + 6100 steps with one table per block, so at most 854 n + 16000000; the blocks of an input of n bytes together at most 1090 n + 16000000. With c tables from i iterations of the clustering a block takes at most (86 + 4 k) n + (n/50 + 2)(4 c + 4) + i (n/50 + 3)(c + 1)(k + 3) plus a number that depends on c and k only.",
  "every input, all ways in which a reader without errors delivers it, all writers, all thread counts from 1 on; every non-empty run-length encoded block below 2^20 - 1 bytes; all cluster counts from 1 on, all numbers of iterations, all distance functions",
  "the worst case depends on the data (long zero runs, skewed frequencies, all codes of maximal length), and timing on samples proves nothing about it",
  [L+"stream/mod.rs:encode_stream", L+"block/rle.rs:rle", L+"bitwise/bitwriter.rs:BitWriterImpl", L+"block/block_encoder.rs:generate_block_data", L+"block/mtf.rs:mtf", L+"block/zle.rs:zle_transform", L+"block/huffman/package_merge.rs:compute_lis", L+"block/symbol_statistics/kmeansclustering.rs:solve"])
p("Decompressing takes linear time, up to the logarithm of sorting",
  "No compressed file makes decompression slow in relation to its size and the size of what it decompresses to: when decode_stream succeeds, having read a stream of m bytes and written n bytes, it has taken at most 528800 m + n (2 log2 n + 701) steps, counting loop iterations, bits read and copied elements, and s (log2 s + 1) for the sort of s elements; a block of c bits with n bytes takes at most 66100 c + n (2 log2 n + 700). (The factor of m is the price of the search of a code in a table of up to 258 entries after each bit.)",
  "all streams that decode, whoever made them, all ways in which the reader splits them, all writers that accept what they are given",
  "the worst case is an adversarial stream: long codes at the end of the table, long unary numbers, many blocks; timing on samples proves nothing about it",
  [L+"stream/mod.rs:decode_stream", L+"block/block_decoder.rs:decode_block", L+"block/huffman/reader.rs:read_symbols", L+"block/zle.rs:decode_zle", L+"block/bwt/bwt_inverse.rs:inverse_bwt", L+"block/rle.rs:inverse_rle"])
p("Standard output is left alone",
  "decode_stream prints nothing on standard output, so that a program can decompress to it. (It does not hold: a line is printed on damaged input, after the good blocks were written. What holds: nothing is printed on success or panic; at most one line otherwise; \"Not a valid bz2 file\" exactly for inputs of four bytes or more that do not begin with BZh; \"Expected block start or stream end\" exactly if, after the blocks that were written, 48 bits follow that are neither magic number.)",
  "all inputs, all ways of delivering them, debug and release builds",
  "the line depends on where in the stream damage is found, and tests do not look at standard output",
  [L+"stream/mod.rs:read_file_header", L+"stream/mod.rs:what_next", L+"stream/mod.rs:decode_stream"])
p("decompress writes where the README says",
  "ribzip2 decompress file.bz2 writes its output to file.out. (It does not hold: the output is in file. What holds: for every path, a decompress of path.bz2 that is not refused creates path, which did not exist, and changes no other name.)",
  "all paths that end in a file name, all file systems and file contents",
  "a test shows it for the names it uses; the claim is about all names",
  ["cli/src/main.rs:try_main", "README.md"])
p("A refused run says why",
  "When the command line program ends with status 1 it prints exactly one line on standard error: it is about the first argument that was not processed, all arguments before it having been processed successfully, and says that the output exists, with the name of the output, exactly if the input could be opened and the output was found; otherwise it is the system's error about the input, or about the output that cannot be created. With any other status it prints no such line.",
  "both commands, all lists of arguments, all file systems, all interference by other processes",
  "the message depends on the state of the file system at three moments and on the outcome of all earlier arguments",
  ["cli/src/main.rs:FileError", "cli/src/main.rs:create_file", "cli/src/main.rs:open_file", "cli/src/main.rs:main"])
p("Only bzip2 streams are accepted",
  "When decode_stream succeeds, what it has read is a valid bzip2 stream for the data it has written. (It does not hold. What holds: it is, or it deviates from the format in one of these ways and no other: the level is not 1 to 9; a block has the flag of randomised blocks, announces an empty range of byte values, has 0, 1 or 7 code tables or no selectors, code lengths outside of 1 to 20 or without a prefix code, an end-of-block symbol missing or before the last group, is too large, or is no transform of any block; something else than the checksum of the blocks and up to seven zero bits follows the end-of-stream magic; or a repeat count of the run-length encoding is followed by three bytes equal to it, which the format allows but is decoded differently; and in release builds, in addition, a selector coded with 256 or more ones or a code length that passes below 0.)",
  "all inputs, of any length, debug and release builds",
  "there are more damaged or crafted streams than any corpus has, and only an exhaustive account of the parser shows that nothing else slips through",
  [L+"stream/mod.rs:decode_stream", L+"block/block_decoder.rs:decode_block", L+"block/symbol_map.rs", L+"block/huffman/reader.rs", L+"block/huffman/mod.rs"])
p("Blocks are self-contained",
  "The files decode_stream accepts consist of blocks that can be put together to other files: in any order, any number of times, from different files, at any bit position, under any level and with any stream checksum; decode_stream then succeeds and writes the contents of these blocks in this order. And a file is compressed block by block: each block of the output of encode_stream is, bit by bit, the only block of what encode_stream makes, with any number of threads, of the content of the block alone.",
  "all lists of accepted files, all lists of their blocks; all inputs, strategies and thread counts; debug and release builds of the decoder",
  "tools that split, join or repair files rely on it for all files; tests have a few, and state that leaks from one block to the next shows with some combinations only",
  [L+"stream/mod.rs:decode_stream", L+"stream/mod.rs:encode_stream", L+"block/block_decoder.rs:decode_block", L+"block/block_encoder.rs:generate_block_data"])
p("The compressed file does not depend on the machine",
  "On machines with 32, 64 or more bits per word, in builds with and without overflow checks, encode_stream makes the same calls of the writer with the same bytes and has the same result, as long as the strategy asks for at most 131072 tables: no number in it overflows. With the single-table strategy and a writer that works it never panics.",
  "all word sizes of at least 32 bits, all readers, writers, thread counts and strategies with up to 131072 tables",
  "sums of frequencies, package weights and products of the clustering overflow only with large or special blocks, and tests run on one machine",
  [L+"stream/mod.rs:encode_stream", L+"block/huffman/package_merge.rs:package_merge", L+"block/huffman/huffman_internal.rs:compute_huffman", L+"block/symbol_statistics/kmeansclustering.rs:solve", L+"block/zle.rs:zle_transform"])
p("What a file decompresses to does not depend on the machine",
  "decode_stream has the same result on machines with 32 and with 64 bits per word. (It does not hold for crafted streams, in both directions. What holds: all valid streams that C34 covers, and all output of encode_stream that C01 covers, made on any machine, decompress to their content on every machine with 32 to 64 bits; and a result of less than 2^29 bytes is also the result of every smaller machine that does not panic.)",
  "all inputs; all word sizes from 32 to 64 bits",
  "tests run on one machine; the differences need particular code lengths or runs",
  [L+"stream/mod.rs:decode_stream", L+"block/zle.rs:decode_zero_amount", L+"bitwise/bitwriter.rs:increment_symbol", L+"bitwise/bitwriter.rs:convert_to_number", L+"block/code_table.rs:read_delta"])
p("Decoding keeps pace with its input",
  "decode_stream can be used on a pipe: each block is written, by one call of the writer, as soon as the byte with its last bit has arrived; no later byte is asked for before. So nothing is held back if the sender pauses, and never more than one block is held.",
  "all inputs (also those that turn out damaged later), all ways of delivering them, all writers, debug and release builds",
  "reading ahead shows only with a reader that blocks at the critical byte, for every block and bit position",
  [L+"stream/mod.rs:decode_stream", L+"block/block_decoder.rs:decode_block", L+"bitwise/bitreader.rs:read_bits"])
p("Runs at the same time do not disturb each other",
  "Several runs of the program may be under way at the same time: files that were there are not changed, and a run that ends without a message leaves the output it would have left alone. (It does not hold if two runs have the same output path and both look for it before one creates it: the output may then be a mixture, or be emptied after a run has ended with status 0. What holds in every interleaving: existing files stay; runs with different output paths do not disturb each other; runs with the same output path that write the same bytes leave exactly these bytes when all have ended.)",
  "all numbers of runs, all commands, files and answers of the system, all interleavings of their system calls and of every single byte written",
  "tests run one schedule; the window between exists() and File::create is microseconds wide",
  ["cli/src/main.rs:open_file", "cli/src/main.rs:create_file", "cli/src/main.rs:try_main"])
p("Compressing keeps pace with its input",
  "encode_stream can be used on a pipe: a block that is complete is compressed and written before more data is asked for. (It holds for one thread only. With t threads the blocks are written in rounds: when the reader is asked for data of block n, exactly the first (n / t) * t blocks are written, so up to t - 1 blocks that are complete and compressed are held back until more data comes.)",
  "all inputs of any number of blocks, all ways of delivering them without errors, all thread counts, all schedules of the threads, all strategies with at least one table",
  "holding back shows only with a reader that blocks in the middle of the data, and depends on the schedule of the threads",
  [L+"stream/mod.rs:encode_stream", L+"stream/mod.rs:flush_work_buffer", L+"stream/mod.rs:send_work"])
p("The installed program does what the tested one does",
  "The command line program is tested with overflow checks (cargo test) and installed without (cargo install). Whatever the arguments, options, files and other processes: unless the checked build panics, the release build leaves the same files and has the same status. For one argument: if the library does not panic on the input, both do the same; both refuse the same arguments; they never differ in names or in other files than the output, and what the checked build writes into it is the beginning of what the release build writes. For every behaviour of the output file the release build has status 0 exactly if the library succeeds and no write failed, and the file holds what the writes took; a file that comes back from compress and decompress with the one build comes back with the other.",
  "all command lines, file systems, file contents, behaviours of reads and writes, interference by other processes",
  "tests run with overflow checks and never see the installed program",
  ["cli/src/main.rs:try_main", L+"stream/mod.rs:decode_stream"])
p("An unreadable input is reported",
  "If the input cannot be read, or not to its end (a directory given by mistake, a failing disk, a network file system that comes and goes), the program says so and ends with a status other than 0. (It does not hold for compress: if reads keep failing the program never ends, for a directory it leaves an empty output file; after an error that does not come back the status is 0 and up to 719999 bytes before the error are missing, that is, a small file comes back empty. What holds: if reads keep failing the status is never 0; each error costs at most the 719999 bytes before it; decompress, in both kinds of build, panics on a directory, and if it ends with status 0 in spite of an error, it does the same without the error.)",
  "all files, all points at which reads fail, all ways the reads are split, all options, thread counts and write behaviours, debug and release builds",
  "tests read regular files whose reads do not fail",
  ["cli/src/main.rs:try_main", "cli/src/main.rs:open_file", L+"stream/mod.rs:encode_stream", L+"stream/mod.rs:decode_stream"])
p("Many files in one command",
  "A command line with many files treats each as if it were the only one: if each file by itself comes back from the library, then compressing all of them with one command, deleting them and decompressing all with one command brings all of them back, in both kinds of build; every other file is as it was and only the .bz2 files are new. If one of the compressed files is damaged, decompress stops there: the files before it are back, no .bz2 file is changed, and nothing behind it is touched.",
  "all file systems, all numbers of files in any directories, all contents the library gets back, all strategies and thread counts, all ways the reads are split",
  "interference between arguments (names that collide, files that are overwritten by a later argument) depends on the names and the number of files",
  ["cli/src/main.rs:try_main", "cli/src/main.rs:create_file"])
p("An interrupted run is noticed",
  "If the program is killed at any moment, the files that were there are unchanged, and what is at the path of the output is nothing or the beginning of what would have been written; what is left cannot be taken for a complete output. For compress: given what is left, decompress (of either build) panics having written a beginning of the content, or ends with status 0 having written all of it. (It does not hold for decompress: the output is written under its final name from the start, so what a killed run leaves is what a run on another file leaves when it has ended with status 0; and the same command, given again, refuses because the output exists.)",
  "all files, all moments at which a run can be killed (system calls and single bytes written), all commands, thread counts, strategies and write behaviours, debug and release builds",
  "a kill can come between any two bytes of any output",
  ["cli/src/main.rs:try_main", "cli/src/main.rs:create_file", L+"stream/mod.rs:decode_stream"])
p("Symbolic links",
  "Whatever symbolic links there are (to files, to links, to nothing, in circles, more than the system follows), a run changes no file that was there, no name that was there and nothing that can be read through any path; there is at most one new file for each argument; it holds what the command writes for the content to which the argument leads, and is read back through the path of the output; and the output is at that path itself. (The last part does not hold: if the path of the output is a link that points nowhere, exists() says no and File::create follows the link, so the output is written to the place the link names, anywhere in the file system. It holds if the path of the output is not a link.) Without links this is the same program.",
  "all file systems with links, all commands, all lists of arguments, all behaviours of reads and writes",
  "tests run in directories without links; who can create names in a directory can choose the link",
  ["cli/src/main.rs:create_file", "cli/src/main.rs:open_file", "cli/src/main.rs:try_main"])
open('/verif/properties.jsonl','w').write(''.join(json.dumps(x)+'\n' for x in P))
print(len(P))
