# Formal model of ebi: design

The code under study is the Rust crate in `/repo/ebi` (version 0.1.14 at the pinned commit), read as text only.
Everything below is about a Lean 4 model in `lean/Verif`, written function by function from that text.
Each definition that models code cites the file and the lines; simplifications are stated in the same comment.

## Trusted base

* **Kernel and axioms.** Lean 4.33.0's kernel, and at most the three standard axioms `propext`,
  `Classical.choice`, `Quot.sound`. No own axiom, no `sorry`/`admit`, no `native_decide`, no `bv_decide`, no
  `implemented_by`, no `unsafe`. `AXIOMS.txt` lists, for every theorem named in `MANIFEST.json`, what
  `#print axioms` reports. Mathlib is not used; everything is on core Lean.
* **The reading of the Rust source.** Nothing ties the model to the code mechanically.
* **Rust semantics assumed.** Little-endian target, `usize` of 64 bits. `Result` is the data type
  `Res` with `ok`, `err` and `panic`; a panic (index out of bounds, `unwrap` of `None`, `todo!()`, slice
  length mismatch) is the explicit value `panic`, never a default. Integer overflow follows release builds
  (wrapping); where a debug build would panic instead a separate predicate says exactly when
  (`deltaOverflow`, `c08_debug_shift_overflow_only`). `Duration`, `Vec`, iterators and slices behave as documented.
* **External crates.** `roaring::RoaringBitmap` is a finite set of `u32`, kept as its strictly increasing list of
  members. `zstd`, `flate2`, `snap` and the ALP library are parameters of the model (`Env`); where a theorem needs
  them to be lossless that is the named hypothesis `LosslessLibraries`. AVX2 intrinsics are modelled lane by lane.
* **Floating point.** Values are 64-bit patterns. Comparison (`feq`, `flt`, `fle`) is defined on the patterns and
  proved against the exact value (C35). Arithmetic is the record `FloatOps`; most theorems hold for *every*
  interpretation of it. Where IEEE rounding matters (Elf, BUFF error bounds, min/max, counterexamples) the
  interpretation is `Soft.ops`: round to nearest even on exact integers in units of 2^-1074, every NaN
  result canonical. That it is the rounding of the standard is proved (C73), so the definition of `Soft.ops` need not be trusted beyond the value of a bit pattern (`exactVal`). It was also compared with hardware doubles on 20000 random pairs per operation, and the Elf numeric model with an
  independent Python transcription on 1500 values (731 erased), no mismatch; these are sanity tests of the
  definitions, not part of any proof. `f64::log10`/`f32::log10` are parameters; nothing is assumed about them except `Log10Close` in the theorems that say so (C09, values from 1e9 on).
* **Input.** The user's reader is a list of events (bytes, `Interrupted`, failure) as `Read::read` may
  deliver them; the output file is the list of bytes. Output writes succeed, except in C50–C53, where the output
  is a device with arbitrary short writes, interruptions and failures, used directly or behind a `BufWriter`. Clocks are arguments.

## What is modelled, and where

| Lean module | Rust source (`ebi/src`) | content |
|---|---|---|
| `Bits`, `Word`, `Bytes`, `Zigzag` | std, `compressor/sprintz.rs`, `decoder/chunk_reader/sprintz.rs` | bit lists, leading/trailing zeros, little-endian integers, `Res`, zigzag |
| `BitWriter`, `BitReader` | `io/bit_write.rs`, `io/bit_read.rs` | all methods |
| `Xor` | `compressor/general_xor.rs`, `decoder/chunk_reader/general_xor.rs` | the generic XOR compressor and reader |
| `Gorilla`, `Chimp`, `Chimp128`, `ElfXor`, `LeadTable` | `compressor/{gorilla,chimp,chimp_n,elf}.rs`, readers of the same names | XOR codecs, simulate functions |
| `ElfNum`, `ElfWrap` | `compression_common/elf.rs`, `compressor/elf.rs`, `decoder/chunk_reader/elf.rs` | erasing layer over either back end |
| `ElfDomain`, `ElfSig`, `ElfCarries`, `ElfRange`, `ElfLarge` | – | lemmas for C09 |
| `RunLength`, `Uncompressed` | `compressor/…`, `format/run_length.rs`, `decoder/chunk_reader/…` | byte codecs with append and rewind |
| `Sprintz` | `compressor/sprintz.rs`, `decoder/chunk_reader/sprintz.rs` | quantised deltas, in-situ queries |
| `BitPack`, `BuffFixed`, `Buff` | `compression_common/buff.rs`, `compressor/buff.rs`, `…/buff/{decode,controlled_precision}.rs` | fixed point, sub-columns |
| `BuffQuery` (+ `BuffSimd`, `BuffBest`, `BuffQueryLemmas`) | `decoder/chunk_reader/buff.rs`, `…/buff/{filter,filter_eq,filter_cmp,min_max,sum}.rs` | in-situ queries, SIMD and scalar loops |
| `External` | `compressor/{zstd,gzip,snappy,ffi_alp}.rs` and readers | wrappers around the libraries |
| `Format` | `format.rs`, `format/*.rs`, `compressor.rs` (configs), `time.rs` | on-disk metadata, both directions |
| `Encoder` | `encoder.rs`, `api/encoder.rs` | chunk loop over arbitrary input delivery, option arithmetic, footer, final patches |
| `Estimate` | – | the float estimate of `ByteSizeBestEffort` is `⌈3n/16⌉` |
| `QueryOutput` | `api/decoder.rs`, `decoder/query.rs` | `materialize`, `filter_materialize` onto an output that may fail |
| `Output` | `api/encoder.rs`, `encoder.rs` | the same run against an output device that may fail |
| `Decoder` | `decoder.rs`, `api/decoder.rs` | opening, chunk handles, whole-file queries |
| `Query` | `decoder/query.rs` | predicates, default queries |
| `ChunkReader` | `decoder/chunk_reader.rs`, all readers | readers with their cached state and cursor, every query as a state transition |
| `Failed` | readers, `io/bit_read.rs` | the same readers, keeping their state after an error |
| `TruncatedLemmas`, `TruncatedBuff` | — | readers on a prefix of their chunk |
| `Tpch` | `experimenter/src/tpch.rs` | column extraction, queries 1 and 6 |
| `Cuda` | `cuda-binding/src/lib.rs`, `chunk_reader.rs` (`gemm`), `api/decoder.rs` (`matmul_cuda`) | `matmul` on a device |
| `Decimal`, `DecimalRound`, `DecimalLemmas` | `experimenter/src/lib.rs` (precision, scale, `round_by_scale`), `main.rs` (default configurations), `tools/src/csv2bin.rs`, `collect-stats.rs` (precision) | decimal text to doubles and scales |
| `Ucr` | `experimenter/src/main.rs` (`slurp_file`, `ucr2018_command`, `ucr2018_knn1_command`) | series from text, training file, 1-NN accuracy |
| `Driver`, `DriverLemmas` | `experimenter/src/main.rs` (`create_config_command`, the checks and the maximum in `process_experiment_for_compressor` / `_dataset`) | filter constants, lossy configurations that are left out |
| `Timing` | the segmented execution times (time.rs) and where they are measured and added: encoder, compressors, chunk readers, decoder, expressions, aggregations |
| `Commands` | the single commands filter, filter_materialize, materialize, max and sum (experimenter/src/main.rs): in memory and from the file, their output, the directory of the results |
| `Defaults` | `create_default_compressor_config`, the configuration loop of `all_patch_command`, `csv_entries` (experimenter/src/main.rs:223-230, 1068-1122, 1265-1348) |
| `Transpose` | `AllOutput` (experimenter/src/lib.rs:215-328) |
| `Saving` | `experimenter` names and saving: `save_output_json`, `save_json_safely`, `save_ucr2018_json`, `write_output_json`, `create_saved_file_at`, output of `compress_command`; std `Path` stem and extension |
| `Embedding` | `experimenter/src/main.rs` `embedding_command` (without clocks and directory walk), `experimenter/src/lib.rs` `get_compress_statistics` |
| `Stats`, `StatsLemmas` | `tools/src/collect-stats.rs`: items, extremes, averages, deviations (square root a parameter), XOR zeros, ratio of repeated values, the loop over the files |
| `Matrix`, `MatrixLemmas` | `experimenter/src/main.rs` (`matrix_command`) | the random numbers are arguments; no times, statistics or output |
| `Table` | `experimenter/src/main.rs` (`all_patch_command`, `process_experiment_for_dataset`, pushes of `process_experiment_for_compressor`, `create_saved_file_at`), `experimenter/src/lib.rs` (`AllOutputInner::clear`, averages) | which runs end up in which cell |
| `Schemes`, `Registry` | `compressor.rs`, `decoder/chunk_reader.rs` | configuration → compressor, scheme id → reader |
| `Memory` | `compressor/{sprintz,buff}.rs`, `encoder.rs`, `…/buff/filter_{eq,cmp}.rs`, `decoder/expr.rs` | the `unsafe` blocks at pointer level |
| `Alp` | `alp-binding/include/compressor_specialized.hpp`, `alp-binding/src/lib.rs` | row groups, vectors, buffer sizes; kernels are parameters |
| `Api` | `api/decoder.rs` (rest), `decoder/expr.rs` | `knn1`, `matmul`, expressions, aggregations |
| `Float`, `SoftFloat`, `SoftLemmas`, `SoftRound`, `SoftDiv` | std | binary64 |
| `*Lemmas`, `FileQuery` | – | helper lemmas |
| `Props/*` | – | specifications and property theorems |

**Not modelled:** what a time measurement encloses, progress bars, `ebi/src/main.rs`, of `tools` all but `csv2bin` and
`collect-stats`, of `experimenter` the command line, the directory walks, JSON and the timings, of `cuda-binding` the kernels, logging, `io::Error`
contents (any failure is `err`), allocation limits.

State is explicit: `&mut self` methods return the new state. Loops with non-obvious termination carry fuel,
and the theorems show that the fuel given suffices (or, for `knn1` with an empty target, that no fuel does).

## Specifications

Every property file begins with a small specification independent of the model's helpers: bits as `List Bool`
(C01–C04), runs as a plain list with append/take (C10, C19, C20), files as `Split k records chunks` (C23–C25, C30–C34),
`pick bm values` for a bitmask, `Extremum` for min/max, `partialSums`, `squaredDistance`/`Nearest` (C41), `dot`/`dataRow`/
`targetColumn` (C42), `evalAt`/`pointwise` (C43), exact rational value of a double as an integer in units of 2^-1074 (C14, C15, C35).
Each theorem has an `example` beside it meeting its hypotheses on a concrete case.

## Per property: what is modelled and how it is proved


### C01 Bit stream round trip — proved

Writer and reader are refined to a plain list of bits (`Rep`, `Rests`); every operation commutes with the abstraction; induction over arbitrary mixed lists of write operations read back with the same shape.


### C02 Bit writer length accounting — proved

Same refinement: number of bytes is the number of written bits divided by 8, rounded up, padding bits are zero.


### C03 Bit reader reports end of stream exactly — proved

Every read on a reader with an in-range cursor, by cases on the byte/bit layout; `c03_reachable` shows the cursor stays in range under all reads. `skip_bits` past the end makes a later read underflow: witness.

Scope: Holds for every reader whose cursor is inside the buffer (an invariant of all reads); after skip_bits past the end read_bits panics: witness c03_skip_past_end_panics.


### C04 Bit writer truncation/rewind — proved

Truncation on the bit list representation.


### C05 Gorilla is lossless — proved

Encoder and decoder as state machines over the real bit writer/reader, one simulation invariant between the states, induction on the input through the generic `XorCodec.Laws`. The reserved NaN cuts the stream: proved for every position.


### C06 Chimp is lossless — proved

As C05 with the rounded leading-zero table (finite table checked exhaustively).


### C07 Chimp128 is lossless — proved

As C05; the ring of 128 values and the 2^14 index table are functions; invariant: every index consulted lies within the last 128 values or fails the distance test, so subtractions never underflow.


### C08 Elf XOR layer is lossless — proved

As C05. A debug build panics on a shift exactly for a difference in the sign bit alone.

Scope: Release-build shift semantics; debug builds panic exactly on sign-bit-only differences (c08_debug_*).


### C09 Elf / ElfOnChimp are lossless — partial

`c09_*`: the wrapper is lossless on every sequence whose values are `Unclipped` from every reachable state; the numeric part shows 1e-6 ≤ |v| < 1e9, zeros and infinities are, by error analysis of the soft float: the digit search stops at a representable decimal, erasing keeps the value within one unit of that decimal, recovery rounds to it. From 1e9 to 2^48 the same argument runs with `get_sp` known only up to `Log10Close`: whenever bits are erased, neither the value nor the erased value is so close to a power of ten that the logarithm could be misjudged. From 2^48 on nothing is ever erased (also where `alpha` wraps around).

Scope: Proved for zeros, infinities and 1e-6 <= |v| < 1e9 with any log10, and for all |v| >= 1e9 if the platform's log10 is accurate to 2.6e-15 next to powers of ten (Log10Close, shown satisfiable). The full claim is false: 3.0000000000000004e-7 decodes to 3e-7 (witness).


### C10 Run-length encoding is lossless — proved

Compressor state abstracts to the list of runs; induction; decoder on the produced bytes, and the run iterator.


### C11 Uncompressed is lossless — proved

Byte-level round trip.


### C12 DeltaSprintz preserves quantised integers — proved

Encoder/decoder over the bit stream, deltas as two's complement words, induction with the running value. `c12_debug_panic_iff`: the inputs on which a debug build panics are exactly those whose neighbouring differences wrap.

Scope: For every interpretation of the float arithmetic, release (wrapping) i64. The scale is stored in 32 bits only: general form c12_scale_truncated, witness c12_large_scale_fails.


### C13 BUFF preserves its fixed-point representation — proved

Bit packing as digits of one little-endian number (`BitPack`), sub-column transposition, for every width 0..64.

Scope: For every arithmetic and every list of i64, no range restriction. The scale-to-fraction-bits lookup uses an oracle for f32 log10.


### C14 BUFF fixed-point error bound — proved

Exact integer value of the double against shift-based code, by cases on the exponent.

Scope: Values truncated to zero lose their sign bit: the decoded value is never of the opposite sign.


### C15 BUFF controlled precision error bound — partial

Masking the low sub-columns against integer division, then rounding of the soft float.

Scope: c15_decoder_materialize is over whole files through the decoder API. Full bound on the stored integers for every chunk; never above the decoded value in doubles; strict bound in doubles when the integers are below 2^53. Beyond, rounding makes the error exactly 2^-b: witness.


### C16 Zigzag mapping is a bijection — proved

Two's complement bit vectors, both directions, and the code as a number.


### C17 Size prediction of XOR codecs is exact per value — partial

Growth of the writer is the length of the emitted bits, which the simulate function computes.

Scope: Full for Gorilla and Chimp, for Chimp128 in streams below 2^32 bits (its counter is a u32; c17_chimp128_wraps holds always); for Elf the XOR back end only (c17_elf_partial). The Elf erasing wrapper around the XOR layer reports only its own flag bits (witness); its result is unused.


### C18 Announced compressed size bounds the bytes written — partial

Announced size against the prepared bytes, every history.

Scope: Proved for every codec, for Chimp128 below 512 MiB. Violated beyond (general theorems): Chimp128 counts bits in a u32, so a chunk of 2^29 or more values is announced too small (a debug build panics).


### C19 RLE incremental append equals batch compression — proved

Consequence of the list refinement of C20.


### C20 RLE rewind undoes appends — partial

Arbitrary lists of append/rewind operations refine operations on a plain list.

Scope: Full for RLE; for Uncompressed bytes, buffered size and later appends (c20_uncompressed_partial), but it leaves total_bytes_in unchanged on rewind (witness).


### C21 Compressor reuse leaks no state — partial

The state reached after any history and `reset`/`compress` gives the same bytes and sizes as a new compressor.

Scope: Proved for all schemes after reset, which the encoder does before each chunk. Partial because BUFF without reset accumulates total_bytes_in over compress calls (witness c21_buff_total_in_leaks); its bytes are the same always.


### C22 On-disk metadata round trips — proved

Serialisers and parsers written field by field; inverse theorems for every metadata value in range, followed by arbitrary bytes. `c22_file` lifts this to whole files of every scheme.


### C23 End-to-end file round trip — proved

Encoder over any clean input delivery, every chunk option: layout theorem (`Split`), directory (C24), then the decoder on these bytes. `c23_every_scheme` composes with the per-scheme laws through the registry and the public decoder.

Scope: c23_every_scheme is through the decoder API for every configuration of all 13 schemes and the inputs it accepts. For every scheme obeying its chunk law; c23_lossless_schemes instantiates it to Uncompressed, RLE, Gorilla, Chimp, Chimp128, and Zstd/Gzip/Snappy/ALP with the external library as a parameter assumed to invert itself.


### C24 Chunk directory is consistent — proved

Invariant of the encoder loop over chunk footers.


### C25 Chunk size option is honoured — partial

Chunk sizes from the loop's stopping rule, for each option; the byte count is computed as in the code (`usize` wrap-around, float estimate).

Scope: Holds for every record count from 1 to 2^60-1 and every byte size from 1 to 2^51-1, every scheme, every input. Outside it is false: counts that are multiples of 2^61 and ByteSize(0) silently drop the input, byte counts from 2^63 panic (both proved for every scheme and input), 2^61+c acts like c and the float estimate rounds (witnesses).


### C26 Encoding does not depend on how the input is delivered — partial

Any splitting of the input in short reads gives the same file (simulation on the source). `Interrupted` is modelled as the code treats it.

Scope: Short reads never matter. Interrupted does: encoding fails or silently drops data (witnesses).


### C27 Trailing partial record — proved

Trailing bytes that do not make up a record are dropped with every delivery.


### C28 Empty input — partial

The code violates the claim: proved for every scheme.

Scope: The code violates the claim: the encoder writes a well-formed empty file but opening it panics (proved for every scheme); the partial theorem says what the file contains.


### C29 A file cut off by a crash is not silently accepted — partial

The file as left by a crash at any point; acceptance is decided by the header read as a footer.

Scope: Full is always rejected. With RecordCount/ByteSize a crashed file can be accepted with made-up data: witness.


### C30 Materialize with a bitmask — proved

Walk over the chunks with running offset; `pick` on the concatenation.

Scope: c30_every_scheme covers all 13 schemes through the decoder API.


### C31 Filter returns exactly the matching records — proved

As C30 with bitmap union; result characterised by membership.

Scope: Readers with the default queries; c31_decoder_filter is through the decoder API.


### C32 Filter-then-materialize equals filter_materialize — proved

From C30 and C31.

Scope: Readers with the default queries; c32_decoder is through the decoder API.


### C33 Sum/min/max aggregate exactly the selected records — proved

`Extremum` is preserved by folding chunk by chunk; hypotheses on `f64::min/max` (`MinMaxLaw`) hold for the soft float.

Scope: Readers with the default queries; f64::min/max laws are a hypothesis met by the soft float.


### C34 Skipping chunks outside the bitmask is sound — proved

The skipping walk equals the visiting walk since the neutral value changes nothing (for sums: never -0.0 as accumulator, `ZeroLaw`).

Scope: Readers with the default queries.


### C35 Predicate semantics on doubles — proved

Comparison on patterns against the exact integer value of each finite double, all 2^128 pairs.


### C36 BUFF in-situ filter agrees with the decoded fixed-point values — partial

Column by column narrowing of the candidate bitmap, induction on the columns; SIMD through C37.

Scope: The c36_decoder theorems are over whole files through the decoder API. Correct on every selected record, for every chunk, bitmask and predicate whose equality constant is not above the chunk maximum; exact for ranges without bitmask. The code violates the rest: records outside the bitmask are returned when the constant is outside the chunk's range, and Eq compares only the low bits (witnesses).


### C37 BUFF SIMD paths agree with the scalar paths — proved

Head/blocks/tail split covers each index once; lane-wise signed comparison of bytes with flipped top bit is unsigned comparison, for every pair of bytes.

Scope: The AVX2 intrinsics are modelled as lane-wise signed comparisons and movemask.


### C38 BUFF in-situ sum/min/max agree with the decoded fixed-point values — partial

Column-wise pruning keeps exactly the records with the best prefix; sums by columns.

Scope: The c38_decoder theorems are over whole files through the decoder API. Min and max in full. Sum for chunks with two different values; for constant chunks the code multiplies in floating point and ignores the bitmask (general form and witness).


### C39 DeltaSprintz in-situ queries agree with the decoded values — proved

Prefix sums over the delta stream against the list of quantised integers.

Scope: The c39_decoder theorems are over whole files through the decoder API. On a reader that has not decompressed yet; predicate constants are rounded like the data. Sum of a chunk without selected record is NaN (part of the statement). After materialize see C40.


### C40 Query answers do not depend on earlier queries — partial

Each reader is a state machine over queries with cache and cursor; invariant: cache holds the decoded values or the cursor is at the start. Violations by witness on the concrete arithmetic.

Scope: Holds for every history of queries for 12 of 13 schemes at a fixed precision. DeltaSprintz violates it (witnesses); the partial theorem gives the histories for which it holds. Lowering BUFF precision keeps cached values (witness).


### C41 1-nearest neighbour search — partial

Invariant of the two nested loops relative to the flat sequence of vectors, when chunk sizes are multiples of the dimension. `KnnAny.lean`: the same invariant for any chunks, with the unfinished vector as state; the specification is the list of distances looked at.

Scope: Holds when no vector straddles a chunk boundary. Otherwise the code gives a wrong answer (witness), even the number of a vector that does not exist (c41_out_of_range); c41_any is the exact answer for every file, scheme and chunking. An empty target loops for ever (proved for every data set).


### C42 Matrix multiplication — partial

Loops over rows, columns and matrices inside a chunk against `dot`; concatenation over chunks. `MatmulAny.lean`: the loop for any chunks; specification by the places where matrices begin in each chunk.

Scope: Holds when no data matrix straddles a chunk boundary. Otherwise wrong (witness); a zero shape panics; the length of the target is not checked. c42_any is the exact answer for every file, scheme, chunking and target length.


### C43 Expression evaluation — partial

Structural induction over the expression with an invariant on the shared chunk readers.

Scope: Holds for expressions without an all-literal operation inside; (1+2)*x is rejected although it has a column (proved in general and witness).


### C44 Aggregation over expressions — partial

Loop over the chunks with the accumulated result equal to the specification of the chunks seen; `compute_multiple` by a simultaneous invariant over all aggregations on shared readers.

Scope: Proved for files of equal chunk sizes, expressions as in C43. A bare column without aggregation panics; columns with different numbers of chunks work alone and panic together (witnesses).


### C45 Elapsed-time metadata round trips — proved

Integer arithmetic.


### C46 Corrupt record streams never produce more data than announced nor hang — proved

Decoders are defined with the remaining bits as measure; number of produced values bounded by bits consumed.


### C47 Reported sizes match the file — proved

Sum of the regions of C24 against the length of the file.


### C48 Files of a foreign format are rejected — partial

What opening does check, and that any accepted file stays accepted after changing magic and checksum.

Scope: The code violates the claim: neither magic nor checksum is verified (witness for any accepted file); the partial theorem gives what opening does check.


### C49 filter_materialize agrees with filter for in-situ readers — partial

BUFF: both take the same bitmap from the reader; the chunk pieces are glued through `pickFrom` over the layout. DeltaSprintz: witness file.

Scope: Holds for BUFF where the filter is proved. DeltaSprintz violates it: filter compares rounded integers, filter_materialize compares the decoded doubles with the unrounded constant (witness).


### C50 Success means the whole file is on the output — proved

Output device with arbitrary short writes, interruptions and failures, directly or behind a `BufWriter` of any capacity (`Output`). Both meet one interface law (`Device.Law`: which bytes have been accepted since the last seek, and that a first part of them is on the device); the run is proved against the law by simulation with `encodeLoop`.

Scope: Output at position 0, as from_file and from_vec give it. From another position encode reports success and the two absolute seeks destroy the file (c50_append_broken).


### C51 What a failed encoding leaves behind — proved

The same law with the states of C29 (`Crashed`) for the part before the patches; a torn elapsed time equals the file of a run with that elapsed time, by `take_leBytes`.

Scope: The partly written footer offset is not shown to be rejected: like the states of C29 it may be accepted.


### C52 Bytes after the end of a file are harmless — proved

`read_exact` and chunk loading are monotone in the file; every query depends on the file only through `loadChunk`.


### C53 Output of materialize and filter_materialize — partial

Invariant of the chunk loop against the device law of C50: what is on the device is a byte prefix of the values the collecting loop returns.

Scope: Proved for an output written directly. Violated for a buffered one: the queries never flush, so Ok does not mean that the values reached the device; c53_buffered_lost is the witness, c53_buffered_partial needs a successful flush by the caller.


### C54 Files of 2^32 records and more — partial

The `u32` casts are part of the model; the loop over chunks without a bitmask never uses them, with one the range of the last chunk is empty.

Scope: Without a bitmask the values are right for every size. Otherwise violated (general theorems): if the number of records is a multiple of 2^32 every query with a bitmask silently ignores the last chunk, although all record numbers fit 32 bits; filter reports record numbers modulo 2^32, so it can name records that do not match.


### C55 Size of compressed chunks — proved

Bits emitted per value from the encoder laws; for Chimp128 an invariant ties ring and hash table to the list of earlier values (`Hist`), so that the reference is computed by a search in that list. RLE: induction over the maximal runs.

Scope: The bounds for the XOR codecs are reached (c55_worst_reached); the external codecs (Zstd, Gzip, Snappy, ALP) are not covered.


### C56 Damage stays in its chunk — proved

The loop over chunks is shown to run its body for needed chunks only, and loading a chunk to depend on its own bytes only; the layout of complete files then gives disjoint chunks. `c56_undetected`: damaged plain doubles are the layout of another list of chunks of the same sizes.


### C57 Unsafe blocks stay in their buffers — proved

`Memory`: allocations with uninitialised cells and explicit undefined behaviour `ub`; each pointer-level function is proved equal to its list version (refinement), with the Rust `Vec` invariant over all histories. `c57_read_unaligned` shows that the view would be unsound for sizes that are no multiple of 8, which no caller passes.

Scope: Foreign code (ALP) and the presence of AVX2 are outside.


### C58 ALP framing — proved

`Alp`: row group and vector loops of compressor and decompressor, with every `memcpy` past a buffer as `ub`; the kernels are a record of functions with a state and an invariant `Ready`. Loop against loop by induction; size by the same induction; truncation because the decompressor is a `FrontReader` (deterministic, reads from the front, no check). `c58_codec` reduces the ALP assumption of the other properties to that on single vectors.

Scope: The numeric kernels are in a submodule that is not in the repository; they are a parameter, assumed lossless on one vector of 1024 values.


### C59 Expressions do not depend on how each column is cut into chunks — partial

Readers of arbitrary chunks (`Pieces`): induction on the expression against `ByRank`, a relation saying how many values there are and how each is computed. Loop over the chunks of the first file by induction. The property fails: witnesses on two files with the same records cut differently.

Scope: The code violates the claim: chunk i of every file is combined by rank, chunks beyond those of the first file are ignored, all without an error (witnesses; c59_files_partial says exactly what is computed for files cut in any way); a file with fewer chunks than the first makes it panic, even if the expression does not use it.


### C60 A query that failed with an error fails again — partial

`Failed.lean` repeats the readers keeping their state after an error; erasing that state gives the readers of `ChunkReader.lean` (`attempt_erase`). Every read of the XOR decoders asks for at most 64 bits, so an error leaves fewer than 64 (`Low`, composed over the monadic code), and a fresh decoder needs 64 (`Hungry`); induction over the history of queries. Elf, libraries, wide DeltaSprintz: witnesses.

Scope: The code violates the claim for Elf, for Zstd/Gzip/Snappy and for DeltaSprintz with a damaged width byte (witnesses, and a general theorem for the libraries: the retry answers with the values of the bytes after the chunk); it holds for the other schemes. The first two theorems tie this model, which keeps the state after an error, to the one the other properties use.


### C61 A chunk that is cut short is reported, never decoded to something else — partial

`answerOf`: a new reader, one query. `Mono`: a bit-reading computation that succeeds on a stream gives the same result on every longer one, leaving the extra bits; holds for each read and is closed under bind, so for every decoder of `Failed.lean` and, through the erasure theorems, of `ChunkReader.lean`; for BUFF function by function (`Below`). Exact cuts: where the decoder of a written chunk stops (`collectE_at`: before the last closing bit) against the bits that are missing (`Mono.err_of_short`).

Scope: The code violates the claim for BUFF (the plain decoder panics on every cut of a written chunk) and, depending on the library, for Zstd; ALP is C58. No other scheme panics because of a cut, and no scheme of the repository, BUFF included, answers anything the whole chunk does not answer. A chunk beyond the end of the file is an error, for BUFF and Chimp128 a panic (c61_beyond_end).


### C62 The TPC-H driver computes queries 1 and 6 over the columns it wrote — partial

`Tpch.lean`: the driver on top of the file, filter, and expression models: columns as a sorted map, one file per column, decoders in column order, query by query. `openColumns_tables` puts the columns under the expression theorems of C59 (`Tables`); filters through C31, C36, C39; the final arrangement by computation. Row predicate restated with `fle`/`flt` against 5/100, 7/100, 24.

Scope: The code violates the claim: averages of query 1 misnamed, BUFF filters of query 6 lose the bitmask (C36), nulls lost in the XOR schemes. Proved: what each query returns on carried tables with every scheme, for BUFF with quantities on both sides of 24. Parquet reading and decimal to double conversion are a parameter.


### C63 Matrix multiplication on the device agrees with matmul — partial

`Cuda.lean`: context with buffers of possibly unwritten cells, `i32` sizes, the loop over chunks. `Multiplies dev scalar`: a device returns in each entry an acceptable scalar product of a row and a column of its column-major operands. Index arithmetic turns the swapped row-major call into that; loop invariant: the result buffer is never longer than a result.

Scope: The code violates the claim (layout of the target, straddling matrices, no columns). Proved: what it computes for every device that multiplies column-major matrices, equality with matmul of the transposed target for a device that adds in order, exactly when the size checks pass. That memcpy_dtoh asserts lengths is taken from cudarc 0.16.


### C64 Precision and scale chosen from the text are what the numbers need — partial

`Decimal.lean`: text as characters with UTF-8 lengths, `i32` parsing, ordered map, loop. Spec: `Literal` (sign, digits, fraction, exponent), `Scaled l p m`: value * 10^p = m. The map is characterised by counting functions (`weight`), the loop by the running count; the share is compared through monotonicity of rounding.

Scope: The code violates the claim for upper-case E and exponents beyond i32 (proved, with what it returns instead). Proved for all other literals; the selection is proved in full, with IEEE arithmetic: fl(a/n) < 0.01 iff 100 a < n for n <= 2^52.


### C65 DeltaSprintz with the default scale gives decimal data back bit for bit — proved

`nearest s m S`: the double nearest to ±m/S. Half-ulp bound of the division, exact neighbours (4m±1)/4 and monotonicity of rounding give round(v * S) = m for m < 2^51; dividing again is the same rounding. Order of doubles = order of numerators (strict monotonicity) gives the filter. `near_half`: a divisor less than half gives another double. Parser proved against `Literal.text`.

Scope: IEEE arithmetic (Soft.ops). f64::from_str is modelled as the documented grammar with correct rounding.


### C66 The UCR2018 driver reports the accuracy of nearest-neighbour classification — partial

`Ucr.lean`: parsing lines, one encoded file, one search per test series and repetition, the count. Spec: `NearestSeries`, `Classified`, `IsAccuracy` over lists of series, no file in sight; uniqueness proved. Uses C41 (knn over chunks of whole series), C64/C65 for text and scale.

Scope: The code violates the claim on the whole files: c66_first_lost proves the negation. Proved in full for the series after the first of each file and at most nine decimals; the other violations are theorems of their own. IEEE arithmetic (Soft.ops) where text is involved.


### C67 The constants of the filter experiments are the percentiles they are named after — proved

`Driver.lean`: sorting, the three indices, the five predicates as they are read back. Spec: `IsPercentile` by counting, independent of sorting; `Shares` says how many records a filter answers. Uses C31 and C65 for the filters on files.

Scope: The number that serde_json reads back is a parameter; c67_experiment assumes it gives the constants back, c67_json_moved says what happens when it does not. Sorting is modelled as insertion sort: the theorems use only that the result is sorted, and constants are unique up to the sign of zero.


### C68 BUFF and DeltaSprintz are run only on data they can quantise — partial

`Driver.lean`: the loop over the file with its stale buffer, the product, the two comparisons. Spec: `Unclipped` (rounding, `as i64` and back gives the same number), shown to be exactly magnitude up to 2^63 (`carried`, `not_carried`). By monotonicity of correctly rounded multiplication.

Scope: The code violates the claim for negative records (c68_negative, the negation). c68_check is the exact condition of the check, c68_safe_partial the claim for records that are at least zero, c68_skipped the other direction in full. IEEE arithmetic (Soft.ops).


### C69 Every cell of the result table holds one run of its configuration — partial

`Table.lean`: maps as functions, the two loops, `clear`, pushes, the save directory; outcomes of the runs are given per configuration and pass. Spec: `Holds` (a cell is one run), `lastRun` / `pushed` over the list of runs under a name. By induction over configurations and over data sets (`walk_spec`).

Scope: The code violates the claim: c69_twice (the negation for data sets and compressors patched together), c69_again, c69_left_out, c69_no_resume. c69_history is the exact content of every cell; the claim is proved in full for data sets done once from an empty table (c69_once_partial, c69_all_partial). Averages in IEEE arithmetic (Soft.ops).


### C70 A precision set on a decoder reduces what is materialized, and nothing else — partial

Files written with BUFF open, for every precision of the table, as chunks of reduced values (`Written.atPrecision`, from C15 chunk by chunk); the theorems on `Opens` of C41/C42 and the loop over chunks do the rest. Spec: `Reduced`, on the fixed-point integers; `c70_error` turns it into a statement on doubles. `filter_materialize` (`Props/PrecisionFilter`): the union of the chunk filters, as in C36, picked from the reduced values.

Scope: The code violates the documented claim: c70_rounds_differently is its negation, c70_half_unit_partial what remains of it. c70_disagree: materialized values against filter and max on one decoder. filter_materialize at a reduced precision: c70_filter_materialize (below BUFF's largest representable numbers, as in C36), and c70_written_outside, where it writes a number that does not meet the predicate.


### C71 The matrix experiment multiplies the matrices it has generated — proved

`round_by_scale` of a number from -4 to 4 is a nearest decimal (`roundByScale_nearest`); the assertion on the chunk option gives whole matrices per chunk, so that C42 (and C70 for BUFF) applies to the file that is written. DeltaSprintz changes no decimal but -0 (C65), and sums of products are the same up to the sign of zeros (`SameUpToZero.add`, `.mul`).

Scope: Elf only for numbers it is proved to carry (zero or at least a millionth, C09); the logarithm of the scale is eight (libm); files below 2^63 bytes.


### C72 Answers do not depend on the scheme or on how the records are cut into chunks — partial

C30-C33, C41 and C42 give each answer as a function of the records; two files of the same records therefore agree (`nearest_unique`: there is one last nearest vector). For sums: one addition errs by half a unit in the last place (`add_error`), a running sum after d roundings satisfies `D^d * (error + A) <= (D+1)^d * A` with D = 2^53 (`Sums.add`, `Sums.fold`), and `(D+1)^d <= D^(d+1) / (D-d)` (`pow_bound`). On a grid with less than 2^53 points nothing is rounded (`fold_exact`).

Scope: The sum of the same records does depend on the chunks (c72_sum_differs: 0 in one chunk, 1 in two), so sums are stated with an error bound and with a condition under which they are exact. Soft floats for sums. Sums of absolute values up to half the largest double.


### C73 The double arithmetic the queries are computed with is IEEE-754 arithmetic — proved

`divRne_best`: the rounded quotient is a nearest integer and even if there are two. `magVal_grid`: doubles of at least `2^(52+e)` units are multiples of `2^e`, so that a nearest multiple is a nearest double (`roundMag_best`). `roundMag_overflow` gives the threshold. Uniqueness: between two doubles with even last bits lies a third (`between`).

Scope: A NaN result is always the canonical one in the model (hardware may keep a payload); the sign of a zero from f64::min and f64::max is left open by Rust, and theorems about extrema are stated for every choice.


### C74 The statistics tool reports what the file holds, and where it does not — proved

`maxFrom_ok`/`minFrom_ok`: invariant of the fold that keeps what is before and after the current extreme. Averages: integers below `2^53` are exact as doubles (`cast_exact`), so the quotient is rounded once (`quot_int`, from `c73_div` by scaling). `sumWrap32_eq`: the wrapping sum is the sum modulo `2^32`. `c74_report`: induction over the files.

Scope: The square root is a parameter; of the deviations only the case of one value and the sign of what is under the root are stated. Release build (sums wrap).


### C75 The embedding experiment: what it runs, what it reports, what ends it — proved

`c75_precision` from `c73_round`. One repetition: `written`, `c47_sizes`, `c22_file` and `c30_every_scheme` on the arguments of `Tpch.encoderArgs`; the loops by induction, the map by the schemes being different. Failures: the uncompressed configuration is never left out and `c28_empty_input_panics`.

Scope: Data sets of whole records; values a configuration accepts as in C23; `c75_supported` assumes the f32 logarithm gives k for 10^k, k <= 12. Clocks and the directory walk are not modelled.


### C76 Which results the experimenter keeps and which it overwrites — proved

Names: induction to the last dot. `c76_free`: different numbers have different names (value of the digits), so one of `length + 1` is free. `c76_sequence`: invariant that exactly the numbers below `a` are used. Device: the `BufWriter` of C53, one `write_all`, then drop.

Scope: One directory at a time; JSON texts and encoder are parameters; stem, extension and with_extension as in std.


### C77 What total_bytes_in counts — proved

Case split on the configuration; RLE by induction over the input; sequences by induction over the calls.


### C78 The table by compression method holds the same results — proved

Invariant of the two loops: a cell of the result is the cell of the rows walked so far; counting by duplicate-free lists contained in each other.

Scope: HashMap = list of entries with distinct keys in any order.


### C79 The reported execution times are the sums of what was measured — partial

Refinement (forgetting timer and log gives the existing model of each query) and an invariant of every loop: the timer is the sum over the new part of a log of all stopped measurements; for expressions the same with the list of lost reads.

Scope: Proved for queries, nearest neighbour, matrix products and the encoder. The code violates it for expressions and bare columns: c79_multiple and c79_compute say exactly what is lost, c79_reads_unreported, c79_column_unreported and c79_sum_mislabelled are the violations. How much code a measurement encloses is not modelled.


### C80 The single commands give in memory and from the file the same answer and lose nothing — partial

Refinement between the two branches (the writer loop over any sequence of device events against the list of values of C30-C33) and case analysis; the lost input by induction over the chunks.

Scope: Proved for every file and request unless the output has the name of the input, where the code loses the input (c80_input_lost). c80_filter and c80_max are for schemes other than BUFF and DeltaSprintz, whose queries have their own claims. The directory the results go to must have two components above it, else the program panics after the work is done (c80_save_dir).


### C81 A query asked chunk by chunk gives the whole answer — proved

Induction over the loop of the decoder, with an invariant of the accumulated answer (sorted, not NaN, not negative zero); the restriction by comparing the chunks that are visited.

Scope: The first seven hold for any file and every scheme. c81_as_bitmask has materialize for every scheme and the other queries for all but BUFF and DeltaSprintz, whose in-situ queries have their own claims.


### C82 Filters on the answer of filters select what matches all — proved

Induction over the list of predicates, on top of C30-C33.

Scope: For the schemes whose filter compares the decoded values; BUFF and DeltaSprintz compare quantised values (C36, C39).


### C83 The default configurations are those of the data set — partial

A table of names and configurations per scheme as specification; induction over the files written and over the data sets, with the directory and the skip list as state; C65 for the use of the configuration.

Scope: c83_created, c83_fresh, c83_again and c83_all hold for all texts and directories. That the configurations in the directory are those of the data holds up to 19 decimals (c83_current_partial) and is false beyond (c83_stale, c83_stale_fails). One empty binary file or one without CSV file ends the whole command (c83_ends).


## Findings: where the code departs from its claims

Each is a theorem (general, or a concrete witness evaluated by the kernel) unless marked *(read only)*.

* **Format/opening.** Neither magic number nor checksum is verified (C48). A file of zero records, which the encoder writes,
  panics on opening (C28). After a crash the header can be read back as a footer with `RecordCount`/`ByteSize` (C29). An input
  returning `Interrupted` fails or silently loses data (C26). `RecordCount(0)`, `RecordCount(2^61 k)` and `ByteSize(0)`
  silently drop all data, larger counts wrap or panic (C25).
* **Output.** `encode` starts at the output's current position but patches at absolute positions: appending with `from_writer`
  reports success and produces a file that cannot be opened (C50). Queries never flush: through `into_buffered` they return `Ok` with the values still in memory, and a
  failing device then loses them silently when the writer is dropped (C53).
* **Bit reader.** After `skip_bits` beyond the end `read_bits` underflows (C03).
* **XOR codecs.** The reserved NaN pattern inside the data cuts the chunk there (C05–C08); through Elf every NaN payload does (C09).
  Elf XOR in debug builds panics on values differing in the sign bit only (C08). Chimp128 counts bits in a `u32`: a chunk
  of 512 MiB compressed or more is announced too small (C17, C18; a debug build panics).
* **Elf.** Below 1e-6 not lossless: 3.0000000000000004e-7 decodes to 3e-7 (C09). The wrapper's simulated size omits the back end (C17).
* **RLE/Uncompressed/BUFF statistics.** Uncompressed `rewind` leaves `total_bytes_in` (C20); BUFF `compress` accumulates it (C21).
  Empty chunks panic (RLE, BUFF, Sprintz; C10, C12, C13).
* **Sprintz.** Only the low 32 bits of the scale are stored (C12). `min` after `materialize` returns the maximum, `filter` then
  `filter_materialize` fails, answers change with the history (C40). Sum of a chunk without selected record is NaN (C39).
* **BUFF.** Filters return records outside the bitmask, and `Eq` compares only the low bits (C36). Sum of a constant chunk ignores
  the bitmask (C38). Error bound not strict for integers above 2^53 (C15). Lowering the precision keeps cached values (C40).
* **Decoder API.** `knn1` and `matmul` are wrong if vectors/matrices straddle chunks (`knn1` may even answer a number beyond the last vector), `knn1` with an empty target never
  returns, `matmul` with a zero shape panics and never checks the target's length (C41, C42). `(1 + 2) * x` is rejected (C43).
  Aggregation `None` of a bare column is `todo!()`; `compute_multiple` panics where single `compute`s succeed (C44).
  Expressions over files with different chunk sizes silently combine wrong records: the same column with 4 and with 2 records per chunk
  gives `x - x` ≠ 0, and an unrelated file placed first cuts the result off (C59).
* **Retries.** A chunk reader that returned an error may succeed when asked again: Zstd, Gzip and Snappy readers then decode the
  bytes after their chunk, Elf and (with a damaged width) DeltaSprintz readers decode what is left of theirs (C60).
* **Record numbers.** They are `u32` in bitmaps: with 2^32 records (or a multiple) every query with a bitmask silently ignores the last
  chunk, and on larger files filter names wrong records (C54).
* **Memory.** An expression whose `materialize` fails leaks its buffer (C57). *(read only)* The AVX2 filters are called without checking
  the CPU for AVX2.
* **ALP.** The decompressor checks nothing: a chunk that is too short, or whose records were miscounted, is read past the end of its
  buffer (C58). The output buffer of `compress_double` is smaller than the worst case of the format: a vector of 64 bits with 817
  exceptions does not fit; whether the kernels ever choose this cannot be told from the repository (C58).
* **TPC-H driver.** Query 1 reports the average price as average discount, the average quantity as average price and the average
  discount as average quantity (`swap` twice, of the sums and of the names); the simplified query overwrites the sum it announces.
  With BUFF, query 6 also adds rows that the first filter had excluded (C62).
* **CUDA.** `matmul_cuda` reads the target row by row, `matmul` column by column: same arguments, different products (the experiments
  pass both the same target) (C63).
* **Decimal precision.** `get_decimal_precision` looks for a lower-case `e` only: `1E-5` has precision 0 (and `1.5E3` precision 3); data written
  that way is rounded away by the default DeltaSprintz configuration (C64, C65).
* **Default scale.** `create_default_compressor_config` allows scales up to 10^19, DeltaSprintz stores 32 bits: data with ten or more decimals
  comes back wrong, every non-zero record by a factor above two (C65, C12).
* **UCR2018 driver.** `slurp_file` skips the first line of files that have no header: one training and one test series are lost (C66, negation
  proved). The scale `10^p` is cast to `i32`: with ten decimals values are rounded by 1410065408, with eleven and more by whatever is left.
* **Filter constants.** serde_json writes infinities as `null`, so a data set with an infinite percentile is dropped; 1.0.124 without `float_roundtrip`
  may read a number back one ulp off, and then the `eq` experiment answers nothing (C67).
* **Quantisation check.** `max_value` starts at `0.0`: negative records are never checked, and `-1e300` is quantised to `i64::MIN` (C68, negation proved).
* **Result table.** `AllOutputInner::clear` forgets `max` and `sum`; `binary_entries_patching.contains(&PathBuf::from(stem))` is never true; the save
  directory is written as one cell and read as a map, so it never resumes; skipped configurations leave empty cells and NaN averages; throughput averages
  divide by the number of runs twice (C69).
* **Precision.** The documentation of the precision (`decoder/chunk_reader.rs:383`, `api/decoder.rs:128-130`) promises equality after rounding; the code
  truncates. Filters and aggregates on the same decoder use the full value (C70).
* **Statistics tool.** `mean_i32` adds the exponents in an `i32`: from 2099203 zeros on the average exponent is wrong, even positive (`c74_exponent_wraps`; a debug build panics instead). One file with two numbers of which one is NaN ends the tool before `stats.json` is written, so the statistics of all other files are lost (`c74_nan_loses_all`). A field of blanks only is skipped here but refused by `csv2bin` (`c74_blank_field`).
* **Embedding experiment.** The number of decimals is cast to `u32` before the power is taken, so 2^32 + 3 decimals are run as three (`c75_cut`). Ten to twelve decimals are admitted for DeltaSprintz although the scale its files hold has 32 bits; the values read back are then wrong and nothing notices (`c75_ten_decimals`). A data set missing from `precision_data.json`, or an empty one, ends the run and no result is saved (`c75_missing_precision`, `c75_empty`).
* **Saving results.** `create_saved_file_at` applies `with_extension` to a stem, so `a.v1.bin` and `a.v2.bin` overwrite each other's `a.json` (`c76_saved_name`). `compress` on `x.ebi`, from files, truncates its own input (`c76_compress`); `x.bin` and `x.dat` share `x.ebi` (`c76_compressed`). UCR2018 results of `A_3` and of `A` with three decimals share a file (`c76_ucr_meet`). `write_output_json` drops its `BufWriter` without a flush: results below 8 KiB are reported as saved on a full disk (`c76_lost`).
* **Counters.** Zstd and BUFF do not reset in `compress`: after two calls `total_bytes_in` counts both inputs while the buffers hold the second (`c77_sequence`). The encoder resets before each chunk, so files are not affected (`c77_chunk`).
* **Averages over a hash map.** `average_compression_ratio` and its neighbours add doubles in the order of a `HashMap`: the last digits differ from run to run (`c78_average_order`). `average_decompression_throughput` divides by the number of runs twice, like the compression throughput (`c78_decompression_halved`).
* **Lost and mislabelled times.** `Expr::compute_chunk` resets the timer of a reader after the reader was opened, so the reads of all in-house schemes are missing from the times of expressions, i.e. of the TPC-H queries (`c79_reads_unreported`: `IORead` is 0 there although every chunk was read). `Aggregation::compute` on a bare column adds nothing to the timer it is given, `compute_multiple` does (`c79_column_unreported`). `compute_multiple` opens every chunk of every file even if all aggregations are bare columns. The in-situ `sum` of DeltaSprintz is reported as `CompareInsert` (`c79_sum_mislabelled`). The compression by run lengths and by the libraries is in none of the encoder's times (`c79_compression_unmeasured`). `SegmentTimer::stop` after `stop_on_drop` would record twice (`c79_timer`); nobody calls the latter.
* **Input truncated.** `materialize` and `filter_materialize` create their output before the query reads the file; called on a file named `x.materialized` (`x.filter_materialized`) they truncate their input and then fail or report 0 bytes (`c80_input_lost`). A file name with no directory above it makes every command panic after its work is done (`c80_save_dir`), and files of the same stem in sibling directories share the directory of their results (`c80_save_shared`).
* **Chunk ids beyond the file.** A query with a chunk id the file does not have succeeds: `max` reports minus infinity, `sum` 0 and `materialize` no value (`c81_beyond`).
* **Stale configurations.** From 20 decimals on no DeltaSprintz and BUFF configuration is written; files of an earlier run with another scale stay and are used (`c83_stale`). Of two CSV files with the same stem the one listed last decides the scale (`c83_csv_shadowed`).
* **Cut chunks.** BUFF panics on a chunk that is cut short; the other schemes of the repository report it. If the Zstd library
  returns less than announced, the reader fills up with zeros (C61).

## Seeded bugs

`seeded/LOG.jsonl` has one line per seeded bug: the definition edited, the edit, the claim it breaks, the theorems that failed, the theorems
tightened in response. Bugs are applied to a scratch copy; the whole library is rebuilt.
