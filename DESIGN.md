# Formal model of torfmaster/ribzip2 in Lean 4 — design

## 1. Layout

* `lean/Verif/Model/*`  — executable model, function by function, each definition citing file:lines of /repo.
* `lean/Verif/Spec/*`   — small specifications. Except `Spec/Reader` (vocabulary for reader scripts) and
  `Spec/Cli` (what a file path, a well-formed file system, ... is) they do not mention the model:
  reference RLE1 decoder, bitwise CRC, sorted-rotation BWT, suffix order, canonical prefix codes and Kraft
  sums, transmission of lengths, selectors and symbol maps, the container, and `Spec/Format`: the bzip2
  format as a relation between contents and bits (`ValidStream data bytes`).
* `lean/Verif/Proofs/*` — helper lemmas.
* `lean/Verif/Props/*`  — the property theorems (`Cxx_...`), with non-vacuity examples.
* `properties.jsonl` (generated by `mkprops.py`), `MANIFEST.json` (by `mkmanifest.py` from the theorem names and
  `notes.json`), `seeded/` (seeded-bug tests: `mutations.json`, `run.py`, `LOG.jsonl`).

A theorem named `Cxx_refuted...` proves the negation of the property as stated in properties.jsonl, by a
concrete counterexample or, where possible, for a whole class of inputs. The suffix `_partial` marks a theorem
that proves the property under a hypothesis the property does not have; its docstring says which.

## 2. Modelling conventions

* `Bit` is `Bool` (`One = true`), `u8` is `UInt8`, `u32` is `BitVec 32`, `usize` is `Nat`.
  Assumption (discharged by C87 and C88 for the encoder and, up to 2^59 bytes, the decoder): `usize` is 64 bits; arithmetic that could exceed 2^64 is modelled where it matters
  (`decode_zero_amount`, `increment_symbol`). Underflow, overflow of `u8`, and out-of-range indexing are panics.
* `Res α = ok a | err | panic | div`: normal return, `Err(())`, unwinding panic, and non-termination (fuel of a
  modelled loop used up). `unwrap` on an error is `panic`. Integer overflow is a panic (as in a debug build)
  where the model can reach it.
* `&mut` becomes a returned value; loops become structural recursion, or recursion on fuel when Rust's loop is
  not structurally bounded. That the fuel suffices is a theorem (C03, C18, C32, C39, ...), not an assumption: a
  result other than `div` does not depend on the fuel.
* Stable `sort_by` is modelled by insertion sort (the result of a stable sort is determined).
* `f32`: values are rationals, each operation is followed by round-to-nearest-even to 24 significant bits
  (that subnormals, infinities and NaN do not occur is property C71, proved with a model of all of binary32). The k-means theorems
  hold for every distance function; the counterexamples use the modelled `euclid`.
* Readers and writers are scripts of events: data of any size / `Interrupted` / error; and accept k bytes / error.
  A finished script means end of file (or, with `failTail`, an error for ever), or accepting everything.
* Threads (`Model/Threads`): a transition system of the main thread and the workers, two FIFO channels per worker,
  any interleaving. What a thread does between two channel operations touches only its own data and is one step.
  `Model/Stream.encodeStream` is the sequential program; C02 proves that every schedule gives its result, so all
  theorems about `encodeStream` hold for every schedule.
* CLI (`Model/Cli`): names as bytes with the std rules for `file_name`/`extension`/`set_extension`; a file system of
  inodes; other processes as arbitrary functions between the system calls of the program; `BufWriter` of 8192 bytes
  with the std rules, including `Drop`.

## 3. Per-property plan and result

| id | what is modelled and how it is proved; result |
|----|------|
| C01 | false: `A.\n\nB.\n` (evaluated in the kernel). Proved when, in each block, the transform is safe (`TransformSafe`) and RLE meets no count/byte collision (`noCountCollision`), both explicit predicates on the input; plus classes recognisable at sight (last byte occurs nowhere else; smallest byte occurs once; ...). For single blocks safe for the transform: exact condition (iff). |
| C02 | transition system, invariant tying channels to the list of blocks, every terminal state has the sequential output. |
| C03 | progress + decreasing measure for threads >= 1. |
| C04 | reader scripts; `read_to_end` of `take` depends only on the concatenation. |
| C05 | false: reader witness; without errors nothing is lost; each error costs at most the 719999 bytes delivered directly before it (history of the reader kept as a list of deliveries and errors); any input below 720000 bytes is lost by one error at its end; a persistent error never gives a normal end. |
| C06 | direct theorem about the bytes written, for every reader. |
| C07 | false: an input whose block has 900005 bytes (symbolic proof); 900005 proved as upper bound. |
| C08 | induction over the refill loop; invariant "counter >= 1 once a byte was seen" keeps the refill size positive. |
| C09 | false: witness; proved for inputs without count/byte collisions, and for no others (iff, for inputs without 255 bytes 251 in a row). |
| C10 | fold invariant; reference decoder on runs. |
| C11 | kernel check of the 256-entry table against the bitwise definition, lifted by linearity of a step. |
| C12 | linearity and invertibility of the shift register; for two flipped bits its period 2^32 - 1: computed with repeated squaring of the register's matrix by the kernel, at 2^32 - 1 and its quotients by the five prime factors. |
| C13 | inversion of decode_block; invariant of the decode loop. |
| C14 | false: witness with altered footer CRC; the result is proved independent of those 32 bits. |
| C15, C16 | every reading function is local: it depends only on the bits it consumes. |
| C17 | false: witness; a panic is only possible inside a block, and not if the bodies are well-formed, whatever the checksums, the level and the rest of the stream. |
| C18 | no decoder loop outlives the bits of the input. |
| C19 | false: witness; trailing bytes are ignored. |
| C20, C21, C22, C26 | round-trip theorems and agreement with the specifications. |
| C27 | false for gaps; exact: selectors come back iff the used tables have no gap. |
| C23, C24 | package-merge: counting + nesting of the chosen coins gives Kraft equality; exchange argument gives optimality. |
| C25 | canonical codes as numbers; prefix-freeness from Kraft partial sums; read loop. |
| C28 | false (gap in clusters with default parameters; extra selector when the symbols fill the last group), otherwise proved. Exact for one block: a surplus selector makes the decoder read on in the footer, where no later position looks like a magic number (overlap of the magic numbers, by evaluation of all 39 shifts). |
| C29 | false: num_clusters = 8; 0 always panics on non-empty input. |
| C30 | false: `baaa`; never fails and is a permutation for every input; equal to the sorted-rotation transform iff `TransformSafe` (both directions; the converse compares, row by row, suffix ranks with rotation ranks: ranks can only differ in one direction, and both sum up to the same). |
| C31 | permutation argument on sorted rotations, periodic strings included. |
| C32 | full SA-IS proof: induced sorting, naming, recursion, no panic. |
| C33 | false: `baaa`; exact: the rotation starts at the smallest suffix. |
| C34 | declarative format spec; false for surplus selectors and for collisions of a repeat count; proved for all other valid streams; exact condition for streams of one block. |
| C35 | encoder output satisfies the format spec under `TransformSafe`; `baaa` gives an output valid for no content; for one-block inputs without extreme runs the output is valid iff the block is safe (uniqueness of the format's run-length coding, of the transform's code and of prefix parsing). |
| C36, C37 | writer scripts; witnesses and partial theorems; C37_write_error: exact behaviour on write errors. C36_every_writer, C37_every_writer, C37_complete_iff (Props/Writers.lean): for every writer script, exactly what arrives, the result, and when nothing is lost; C50_every_file the same for the command line. |
| C38 | bit writer / reader refinement to a bit list. |
| C39 | all stages return `ok`. |
| C40 | decode loop. |
| C41..C44, C50..C52 | CLI model. |
| C45 | sizes of the parts of a block, number of blocks. |
| C46 | decode of what the encoder wrote: every stage but the transform inverts. |
| C47, C48 | false, for every such input and schedule: the call never ends. |
| C49 | k-means statistics never fail, for every distance. |
| C53 | the bits the reader delivers are a function of the bytes delivered; locality as in C15. |
| C54 | parsing of the format spec is unambiguous (peeling off one part after the other). |
| C55, C57 | false: witnesses (amplification by run symbols), independence of level and randomised bit. |
| C56 | where a prefix of the output ends, with C15/C16/C54. |
| C58 | two rows of the sorted suffixes with the same column and pointer: the suffix order is restored step by step. For k-means the same, for blocks without a gap in the selectors (a selector names a table only then). |
| C59, C60 | invariant of the thread system; potential of the workers. |
| C61 | the loop that cuts blocks does not look behind a block it fills. |
| C62 | second model of the decoder with wrapping arithmetic (Model/Release.lean); relation between the two, function by function. |
| C63 | the proofs of C13, C15–C18 over the second model; C40, C46, C53, C56 from these and from the agreement of C62. |
| C64 | decoder loop that also returns the reader (Model/Position.lean, proved to agree with `decodeStream`); at the end at least one and at most eight bits of the current byte are used; counting bits modulo 8. Naive form refuted. |
| C65, C66 | trace of the bytes through the refill, send and main loops for arbitrary reader scripts (Proofs/StreamTrace.lean). C65 refuted, with the two bounds that hold. |
| C67 | `try_main` over the parsed command line (Model/Cli); what a block announces is read off the bits of the body (Spec/Options.lean); a property of all block bodies is lifted through `encode_stream` to the output file. |
| C68 | the model of the clustering with f32 as rounded rationals (Model/Stats.lean) is compared with a specification of Lloyd's algorithm over exact rationals (Spec/KMeans.lean): rounding error analysis of every operation, near-optimality of the code tables from the Huffman proof; lifted to all blocks. Rounding and square root are proved correct against IsF32. |
| C69 | near-optimality of the code from the Huffman proof (the pair sort is by frequency and position), the frequencies are the counts of the symbols; a code of L bits for every symbol as competitor gives the size. |
| C70 | Locality of the block parser (a block that was decoded is decoded the same whatever follows it) and induction over the blocks of a file: cut anywhere, or damaged anywhere after byte n; both builds; with C43 for interrupted compress runs. |
| C71 | A second model of the floating-point code on IEEE binary32 (`Model/Ieee.lean`: subnormals, infinities, NaN, saturating `as usize`), its rounding proved to be that of IEEE 754; every intermediate value of the clustering is shown to be 0 or between 2^-76 and 2^32 (entries of centres are near means of counters, differences are multiples of 2^-38), so both models give the same output. Simplification: one zero instead of two. |
| C72 | An invariant of the thread model that accounts for every byte: read = written ++ held by the workers ++ unread; the writer's bytes only grow along every step; with C70 (locality of decoding) for what decoding the fragment gives. |
| C73 | For every round an execution is constructed (induction over rounds, and over the workers in each) in which all workers are busy; for the limit, the same invariant as C72 with the number of the round. |
| C74 | Locality of the block parser (C70) up to the damage; case analysis of the magic number; a block that parses fails with Err exactly at the final comparison if only its checksum is changed. |
| C75 | Positions of type LMS are never neighbours, so every level of the suffix sort at least halves the text; induction on the exponent. Coin trees gain one level per exponent and lose coins only. The size of a stack frame is not modelled. |
| C76 | Model/HashOrder: `package_merge` with the map as a list of entries visited in arbitrary orders; equal to the model of `package_merge` used elsewhere. |
| C77 | Model/Steps: duval.rs, sais.rs and bwt_internal.rs with a counter that every loop body increases; erasing the counter gives the model. Duval: each round of the outer loop pays for the distance it advances. Suffix sort: blocks of LMS positions are disjoint, so all comparisons together take n steps; the text halves (C75). Allocations are not counted; the other stages are in C80. |
| C78 | Every reading step of a block, given less than it consumes on success, ends in an error (`Cut`, by induction over the bits for the unary, delta and symbol loops), which `unwrap` turns into a panic; only the randomized bit is read with `?`. Composed over the fields of a block and, by induction, over the blocks; the header and magic numbers give errors. Both builds. |
| C79 | A valid block with one selector per group gives `inverse_rle` of its run-length encoded data if the checksum of that is the stored one, else an error (`pBlock_outcome`, from the block parser of C34); induction over the blocks. Release build by C62. Refuted in general by a valid stream with 20 selectors, evaluated. Surplus selectors in the last block: see C28. |
| C80 | Model/StepsBlock: all functions of `generate_block_data` once more in a monad that counts loop iterations and copied, moved or created elements (a sort of n elements counts n²). `RunsIn x a B`: x returns what the function of the model returns, after at most B steps; composed stage by stage. Coin trees: a tree with n coins has 2 n - 1 nodes, at most 17 coins per symbol survive. Model/StepsStream counts `encode_stream` with the reader, the run-length stage, the checksum and the bit writer in the same way, adding up the threads; the sizes of the blocks are those of C39. The steps of a run that fails (a writer error) are not bounded. The inverse direction is C81. |
| C81 | Model/StepsDecode: `decode_stream` and everything it calls once more in the counting monad of C80 (sorting s elements counts s (log2 s + 1)); erasing the counter gives the decoder, for every outcome. Potential argument: each function pays with the bits it consumes (`k + c * bits after ≤ c * bits before`) and the transforms pay with the bytes they produce. Only successful runs are bounded: a block that fails its checksum may be large however small the file (C55). |
| C82 | Model/Messages: `decode_stream` with the lines given to `println!` as a third component; the first two are those of the decoder, in both builds. The blocks written and the bits behind them are related to the input by the block lemmas of C70, so that the line is a function of the first 48 bits that are not part of a block. False as stated (D23). |
| C83 | From C41 and the run of `decompress` on one path (C50): the name is the path without `.bz2`, other names stay. False as stated (D24). |
| C84 | Model/CliMessages: `create_file`, `open_file`, `try_main` and `main` with the `FileError` and its `Display`; erasing the message gives the program of C42 to C44. Case analysis of one argument, induction over the arguments. |
| C85 | Spec/Strict.lean lists the deviations; inversion of every parser of the decoder (Proofs/Strict.lean): what it accepts has the bits of a block start, of tables, of groups; without a deviation these are a `ValidBody`. Induction over the blocks. For release builds: a block that the checked decoder panics on and the release decoder accepts has wrapped a selector or a code length, or has a deviating table (Proofs/StrictRelease.lean). False as stated (D25). |
| C86 | Decoding: every parser is local (Proofs/DecoderProps), so that a block that was decoded is decoded in every context. Encoding: the greedy split of a part that became a block is that part, and the bits of a block are a function of its content. |
| C87 | Model/Word.lean repeats the encoder with `usize` operations that panic if the result needs more than `bits` bits. Bounds on every sum (frequencies ≤ 900006, tie breaking, package weights by induction over the rounds, code numbers < 2^18) show that none panics from 32 bits on, so that it equals the model with unbounded numbers. |
| C88 | The same for the decoder (`decode_zero_amount` drops bits, as the shift in the code does). Each stage of the bounded decoder is the unbounded one or a panic; a run of zeros that exceeds the word gives a block too large; valid blocks have codes of at most 20 bits. False as stated (D26), shown by evaluation in the kernel. |
| C89 | Model/Calls.lean records for each call of `write` what the reader has still to deliver. Invariant of the bit reader: at least one bit of its current byte is used (every parser keeps it); so the bytes taken end with the byte of the last bit. Induction over the blocks. |
| C90 | Model/Together.lean: any number of runs, whose system calls (open, `exists()`, create, the writing of one byte, end) are interleaved by a transition relation. Invariants by induction over the steps: existing files keep number and content (`Base`); with runs that keep apart each owner's file is a prefix of what it writes (`ApartAll`); with equal bytes each byte is right or is going to be written again (`Same`). False as stated (D27): concrete schedules. |
| C91 | The invariant of C72 and C73 (`Acc`): at each moment at which the main thread asks for data, blocks written = whole rounds. Refutation: a schedule in which all workers but one have finished and nothing is written, for every `t` ≥ 2. |
| C92 | `decompressRelease` is a third command of the CLI model (so that C42, C44, C52, C84 and C90, which are about all commands, hold for it); the two runs side by side (`both_one`), with C62 for the data and `writeAll_prefix` for the output of every writer. |
| C93 | The command line model with readers whose script contains errors or ends in errors for ever (`failTail`; a directory is such a reader with an empty script): refuted for `compress` via C05 and C47, the rest via C05 (loss per error), C43, C53 and C63. |
| C94 | One argument changes the content of one path only (`one_content`, for a file system in which file numbers are not reused); induction over the arguments (`main_content`), for compression and decompression, with the names of C41. |
| C95 | A run of its own in the model of Model/Together.lean (every system call and every single byte written is a step): the invariant of C90 gives the beginning of the output at every moment, `reach_write` gives that every beginning occurs. With C15, C16 (C63 for release) and `compressData_prefix` what a killed `compress` leaves decodes to the content or panics. Refuted for `decompress`: two files compressed by `compress`, one the beginning of the other. |
| C96 | Model/Links.lean: names stand for files or links, `exists`, `open` and `create` follow at most 40 links. A step is a refusal or one new file at the free name to which the output path leads (`oneLinks_cases`); a new name does not change where a path leads (`follow_withFile`, by induction on the number of links). Without links: equal to the model of Model/Cli.lean. Refuted by a link to a free name. |

## 4. Trusted base

* Lean 4.33 kernel (and its GMP arithmetic). No axioms of our own, no `native_decide`, no `bv_decide`.
  Counterexamples and examples use `decide +kernel`, i.e. evaluation by the kernel.
* The reading of the Rust code into the model: by hand, no extraction.
* Contracts of std used by the model: `Read::read_exact`, `Read::take`/`read_to_end`, `Write::write`, `sort_by` is
  stable, `mpsc` is FIFO and `send`/`recv` fail exactly if the other end is gone and (for `recv`) the queue is empty,
  `thread::spawn` succeeds, `BufWriter`, `Path` functions, `f32` is IEEE with `sqrt` correctly rounded.
* Axioms of the property theorems (Lean's standard three only):
  * none: C09_refuted
  * propext: C10_total_size_exact, C27_refuted, C32_suffix_array_unique, C33_refuted
  * Quot.sound, propext: C10_rle_independent_of_refills, C10_rle_is_standard, C10_standard_decoder_inverts, C14_refuted, C17_refuted, C19_refuted, C20_mtf_is_standard, C24_no_ties, C36_refuted, C36_refuted_short_write, C62_release_accepts_more, C64_refuted, C74_few_flips_are_no_magic, C81_counted_program_is_the_program, C82_refuted, C89_calls_of_decode_stream, C88_refuted_long_code, C88_refuted_long_run
  * Classical.choice, Quot.sound, propext: all others (315 theorems).
* The reading was checked by running it: the model's encoder and decoder, evaluated by Lean, against Python's `bz2`
  on random inputs. Encoder outputs are read back by the real bzip2 except for the inputs of D1; real streams are
  decoded by the model except for the inputs of D2. This is a test of the model, not part of any proof.

## 5. Modelled and not modelled

Modelled: all of lib/src (`bitwise`, `block/*`, `stream`), cli/src/main.rs from `try_main` on.

Not modelled: memory exhaustion; the cost of computations other than those of C77, C80 and C81; wall-clock time; structopt's parsing of the argument text (the parsed options are modelled); the messages of
panics (the other lines printed are modelled, C82 and C84); directories and permissions beyond "open/create may fail" (symbolic links: C96 only); concurrent writes by other
processes into the program's own output while it writes, other than further runs of the program itself (C90); unused code (`freqs`-style debug helpers, tests,
benches, fuzz targets).

Overflow: the model panics where a build with overflow checks does; Model/Release.lean models the decoder with
wrapping arithmetic. For the encoder one model serves both builds, because it never panics (C39, C49): no
operation overflows. Counters that grow by one per byte of input are unbounded numbers in both models; Model/Word.lean
bounds the `usize` arithmetic of the encoder and of the decoder by the word size, except for positions in and lengths of
existing vectors (C87, C88).

## 6. Defects of the code found by the proofs

D1 (C01, C30, C33, C35, C51): `rotate_duval` takes the smallest suffix, not the minimal rotation, and suffix order
   then differs from rotation order: e.g. `baaa` or `A.\n\nB.\n` compress to a stream nothing can read.
   This is not rare: every file of up to 720000 bytes without four equal bytes in a row whose last line ends in a byte `c`
   in which some other line ends, too, is lost if the line behind that one begins with a smaller byte than the file, e.g.
   is empty (C01_refuted_text_files, C35_refuted_text_files, C51_refuted_text_files). For single blocks the output is
   valid bzip2 iff the block is safe for the transform (C35_valid_iff_safe_partial).
D2 (C09, C01, C34): `inverse_rle` lets a repeat count take part in the next run.
D3 (C48): 0 threads: infinite loop.
D4 (C05, C47): a read error drops the data of its refill; a persistent one hangs.
D5 (C07): blocks of up to 900005 bytes under `BZh9`.
D6 (C27, C28): selectors are move-to-front coded over the used tables only; the decoder uses all of them.
D7 (C28): k-means statistics write a surplus selector when the symbols exactly fill the last group; such an output is never accepted by the decoder if this happens in the last block.
D8 (C29): 0 tables panic; 8 or more corrupt the 3-bit field.
D9 (C17): malformed blocks panic. D10 (C14): footer CRC ignored. D11 (C19): data behind the footer ignored.
D12: the randomised bit and the level are ignored.
D13 (C36, C37): `write` instead of `write_all`.
D14 (C42): `exists()` / `File::create` race. D15 (C43): `BufWriter` dropped without `flush`.
D16 (C34, C79): the decoder goes on reading after the end-of-block symbol if there are surplus selectors; with enough of them it panics.
D17 (C50): consequence of D13 in the CLI. D18 (C52): failed runs leave a partial output that blocks a retry.
D19 (C55): no limit on the size of a decoded block: 64 bytes decode to 10^15.
D20 (C62): release builds accept code lengths that pass below 0, on which checked builds panic.
D21 (C64): after `decode_stream(&mut reader, …)` the last four bytes of the stream are left in the reader.
D22 (C65): data behind an end of file is compressed too, and how much of it depends on the thread count.
D23 (C82): `decode_stream` prints to standard output on damaged input.
D24 (C83): the README says `decompress` writes `file.out`; it writes `file`.
D25 (C85): `decode_stream` accepts streams that no encoder may write (empty ranges, 1 or 7 tables, code lengths outside of
1..20, several end-of-block symbols, transforms of no block, ...).
What D1 makes unreadable is not lost: the output still determines the input (C58).
D26 (C88): what a (crafted) stream decodes to depends on the word size of the machine: code lengths above 32 overflow in
`increment_symbol` with 32 bits only, and `decode_zero_amount` drops the upper bits of long run lengths.
D27 (C90): two runs with the same output path that both pass `exists()` before one creates the file write into the same
file: the output can be an undecodable mixture with both runs reporting success, and a finished output can be emptied later.
(`OpenOptions::create_new` would exclude it.)
D28 (C91): with two threads and more, finished blocks are held back until the whole round has been read; on a pipe whose
sender pauses up to t - 1 compressed blocks are not written although nothing is missing for them.
D29 (C93): `compress <directory>` (or any input whose reads keep failing) creates the output and never ends; a read error that
does not come back empties a small file silently (status 0 from `compress` and from `decompress`).
D30 (C95): the output is written under its final name from the start: a killed `decompress` leaves a truncated file that nothing
distinguishes from a complete one, and the same command then refuses with `Output file … already exists` (exit status 1).
D31 (C96): if the path of the output is a symbolic link that points nowhere, `exists()` is false and `File::create` creates the
target of the link: whoever can create names in the directory decides where the output goes. (`create_new` would exclude it.)
