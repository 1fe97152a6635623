{"id": "C01", "title": "Bit stream round trip", "statement": "Any sequence of single-bit, whole-byte and n-bit (n<=64) writes to a bit writer, read back from its byte buffer with the same sequence of read calls, yields exactly the written values (each truncated to its width), at every bit alignment.", "quantifier": "every finite sequence of write operations with arbitrary values and widths 0..64", "why_tests_cant": "the interaction of alignment, width and value is unbounded; tests sample a handful of alignments", "anchors": ["ebi/src/io/bit_write.rs: BitWrite::write_bits, BufferedBitWriter::{write_bit,write_byte}", "ebi/src/io/bit_read.rs: BufferedBitReader::{read_bit,read_byte,read_bits}"]}
{"id": "C02", "title": "Bit writer length accounting", "statement": "After any sequence of writes, number_of_bits_written equals the total number of bits written, the byte slice has exactly ceil(bits/8) bytes, and padding bits are zero.", "quantifier": "every finite sequence of writer operations from an empty writer", "why_tests_cant": "length bookkeeping is a state invariant over unbounded histories", "anchors": ["ebi/src/io/bit_write.rs: BufferedBitWriter::{number_of_bits_written,as_slice,write_bit,write_byte,reset}"]}
{"id": "C03", "title": "Bit reader reports end of stream exactly", "statement": "A read of n bits returns None exactly when fewer than n bits remain before the end of the buffer, in which case the cursor does not move; otherwise it returns the next n bits MSB-first and advances by exactly n. Peeking returns the same value as reading and never moves the cursor.", "quantifier": "every buffer, every cursor position inside it, every n", "why_tests_cant": "boundary behaviour must hold at every byte/bit position", "anchors": ["ebi/src/io/bit_read.rs: BufferedBitReader::{read_bit,read_byte,read_bits,peak_bits,skip_bits}"]}
{"id": "C04", "title": "Bit writer truncation/rewind", "statement": "Moving the writer's cursor back to bit k makes the stream equal to the first k bits written; subsequent writes append right there, as though nothing had ever been written after k.", "quantifier": "every written stream, every k up to its length, every continuation", "why_tests_cant": "stale bits left in a truncated last byte only corrupt some value/alignment combinations", "anchors": ["ebi/src/io/bit_write.rs: BufferedBitWriter::{set_cursor_at_in_bit,write_bit,write_byte}"]}
{"id": "C05", "title": "Gorilla is lossless", "statement": "Compressing any sequence of f64 values with Gorilla and decompressing it returns bit-identical values, provided no value is the canonical NaN (which the format reserves as end marker).", "quantifier": "every finite sequence of 64-bit patterns without the reserved pattern", "why_tests_cant": "leading/trailing-zero window reuse is stateful; the state space is 2^64 per step", "anchors": ["ebi/src/compressor/gorilla.rs: GorillaEncoder/EncodeState", "ebi/src/decoder/chunk_reader/gorilla.rs: read_first_value, read_next_value, Iterator::next", "ebi/src/compressor/general_xor.rs"]}
{"id": "C06", "title": "Chimp is lossless", "statement": "Compressing any sequence of f64 values with Chimp and decompressing it returns bit-identical values, provided no value is the canonical NaN.", "quantifier": "every finite sequence of 64-bit patterns without the reserved pattern", "why_tests_cant": "stateful rounding of leading-zero counts over unbounded histories", "anchors": ["ebi/src/compressor/chimp.rs", "ebi/src/decoder/chunk_reader/chimp.rs"]}
{"id": "C07", "title": "Chimp128 is lossless", "statement": "Compressing any sequence of f64 values with Chimp128 and decompressing returns bit-identical values (no canonical NaN in the input); in particular the encoder's hash table of recent values never makes the decoder look up a wrong ring-buffer slot.", "quantifier": "every finite sequence of 64-bit patterns without the reserved pattern, of any length (ring buffer wraps arbitrarily often)", "why_tests_cant": "ring-buffer/hash-table agreement is an invariant over histories longer than the window", "anchors": ["ebi/src/compressor/chimp_n.rs", "ebi/src/decoder/chunk_reader/chimp_n.rs"]}
{"id": "C08", "title": "Elf XOR layer is lossless", "statement": "The XOR back end used by Elf returns bit-identical values for every sequence of 64-bit patterns without the reserved NaN.", "quantifier": "every finite sequence of 64-bit patterns without the reserved pattern", "why_tests_cant": "stateful leading/trailing window with two centre-length encodings", "anchors": ["ebi/src/compressor/elf.rs: ElfXorEncoder", "ebi/src/decoder/chunk_reader/elf.rs: ElfXorDecoder"]}
{"id": "C09", "title": "Elf / ElfOnChimp are lossless", "statement": "Compressing any NaN-free sequence of f64 values with Elf or ElfOnChimp and decompressing returns bit-identical values: the erased mantissa tails are always reconstructed exactly.", "quantifier": "every finite sequence of non-NaN doubles", "why_tests_cant": "erasing relies on decimal significand counts and floating-point rounding for 2^64 values", "anchors": ["ebi/src/compressor/elf.rs: ElfEncoderWrapper::add_value", "ebi/src/compression_common/elf.rs", "ebi/src/decoder/chunk_reader/elf.rs: next_value, recover_v_by_beta_star"]}
{"id": "C10", "title": "Run-length encoding is lossless", "statement": "Compressing any non-empty sequence of f64 values with RLE and decompressing it yields bit-identical values, NaNs and signed zeros included, for runs of any length.", "quantifier": "every non-empty finite sequence of 64-bit patterns", "why_tests_cant": "run boundaries at 255 and pending-run flushing depend on the whole history", "anchors": ["ebi/src/compressor/run_length.rs", "ebi/src/decoder/chunk_reader/run_length.rs"]}
{"id": "C11", "title": "Uncompressed is lossless", "statement": "Compressing any sequence with the Uncompressed scheme and decompressing yields bit-identical values, in order.", "quantifier": "every finite sequence of 64-bit patterns", "why_tests_cant": "every bit pattern, every length", "anchors": ["ebi/src/compressor/uncompressed.rs", "ebi/src/decoder/chunk_reader/uncompressed.rs"]}
{"id": "C12", "title": "DeltaSprintz preserves quantised integers", "statement": "For any non-empty sequence of values whose scaled, rounded integers have no delta overflow, DeltaSprintz decodes exactly each rounded integer divided by the scale; each delta uses the announced bit width and none is truncated.", "quantifier": "every non-empty sequence of quantised i64 values with in-range consecutive deltas, every scale < 2^32", "why_tests_cant": "width selection is a maximum over the whole chunk", "anchors": ["ebi/src/compressor/sprintz.rs: delta_sprintz_compress_impl, zigzag_delta_num_bits, zigzag", "ebi/src/decoder/chunk_reader/sprintz.rs: DeltaSprintzIterator"]}
{"id": "C13", "title": "BUFF preserves its fixed-point representation", "statement": "For any non-empty chunk of values representable in BUFF's fixed-point format, decompression returns exactly the fixed-point integer of each value divided by 2^fraction-bits, in the original order, whatever the width of the value range (sub-byte, byte multiple or mixed).", "quantifier": "every non-empty list of fixed-point i64 values with delta range below 2^63", "why_tests_cant": "byte sub-columns plus bit-packed tail interact for each of 64 widths and every length", "anchors": ["ebi/src/compressor/buff.rs: buff_simd256_encode", "ebi/src/decoder/chunk_reader/buff/decode.rs", "ebi/src/compression_common/buff.rs: BitPack"]}
{"id": "C14", "title": "BUFF fixed-point error bound", "statement": "The fixed-point integer BUFF stores for a finite in-range double v with F fraction bits is v*2^F truncated toward zero, so the decoded value never has the opposite sign and differs from v by strictly less than 2^-F.", "quantifier": "every finite double whose scaled magnitude fits in the 63-bit fixed point, every fraction width", "why_tests_cant": "2^64 inputs times 13 precisions", "anchors": ["ebi/src/compression_common/buff.rs: get_precision_bound/into_fixed_representation*"]}
{"id": "C15", "title": "BUFF controlled precision error bound", "statement": "Materializing BUFF data with a controlled precision p returns for each record a value that is at most the fully decoded value and smaller by strictly less than 2^-(bits of p); p at or above the stored precision returns the exact decoded values.", "quantifier": "every non-empty chunk, every precision in the table", "why_tests_cant": "how many sub-columns are skipped depends on width, base and precision together", "anchors": ["ebi/src/decoder/chunk_reader/buff/controlled_precision.rs: decode_with_precision"]}
{"id": "C16", "title": "Zigzag mapping is a bijection", "statement": "Zigzag encoding of any i64 delta followed by decoding is the identity, and small absolute values map to small codes (code < 2*(|d|+1)).", "quantifier": "every 64-bit integer", "why_tests_cant": "2^64 values", "anchors": ["ebi/src/compressor/sprintz.rs: zigzag", "ebi/src/decoder/chunk_reader/sprintz.rs: unzigzag"]}
{"id": "C17", "title": "Size prediction of XOR codecs is exact per value", "statement": "For Gorilla, Chimp, Chimp128 and Elf the simulated size of adding a value equals the number of bits actually appended by adding it, in every reachable encoder state.", "quantifier": "every reachable encoder state (any history) and every value", "why_tests_cant": "the simulate path duplicates the encode logic; divergence shows only in particular states", "anchors": ["ebi/src/compressor/gorilla.rs: simulate_encode", "ebi/src/compressor/chimp.rs: simulate_add_value", "ebi/src/compressor/chimp_n.rs: simulate_add_value", "ebi/src/compressor/elf.rs: simulate_*"]}
{"id": "C18", "title": "Announced compressed size bounds the bytes written", "statement": "total_bytes_buffered() reported before prepare() is never smaller than the number of bytes prepare()+buffers() produce, and is off by at most one byte; for RLE and Uncompressed it is exact.", "quantifier": "every history of appended values", "why_tests_cant": "size is a function of unbounded history", "anchors": ["ebi/src/compressor/general_xor.rs: total_bytes_buffered, prepare, buffers", "ebi/src/compressor/run_length.rs: total_bytes_buffered", "ebi/src/compressor/uncompressed.rs"]}
{"id": "C19", "title": "RLE incremental append equals batch compression", "statement": "Appending data to an RLE compressor in any number of pieces yields the same bytes as compressing the concatenation in one call; the same holds for Uncompressed.", "quantifier": "every list of non-empty appended pieces", "why_tests_cant": "runs crossing piece boundaries in all possible ways", "anchors": ["ebi/src/compressor/run_length.rs: append_compress, compress", "ebi/src/compressor/uncompressed.rs: append_compress"]}
{"id": "C20", "title": "RLE rewind undoes appends", "statement": "If rewind(n) reports success the compressor is indistinguishable (bytes, sizes, later appends) from one that was never given the last n values; if n exceeds the number of values held it reports failure.", "quantifier": "every appended history and every n", "why_tests_cant": "rewind has to cut inside, at, and across run fields and the pending run", "anchors": ["ebi/src/compressor/run_length.rs: rewind", "ebi/src/compressor/uncompressed.rs: rewind"]}
{"id": "C21", "title": "Compressor reuse leaks no state", "statement": "Compressing a chunk with a compressor that has compressed any earlier chunks yields exactly the bytes and size statistics a fresh compressor yields.", "quantifier": "every sequence of previous chunks and every next chunk", "why_tests_cant": "leaks depend on the previous history", "anchors": ["ebi/src/compressor/general_xor.rs: compress", "ebi/src/compressor/run_length.rs: compress", "ebi/src/compressor/buff.rs: compress", "ebi/src/encoder.rs: chunk_writer_with_compressor"]}
{"id": "C22", "title": "On-disk metadata round trips", "statement": "Every file header, chunk option, footer, chunk footer and compressor configuration written by the encoder parses back to the same values, from exactly the number of bytes announced.", "quantifier": "every value of every field within its integer type, every scheme", "why_tests_cant": "combinations of field values are unbounded in practice", "anchors": ["ebi/src/format.rs", "ebi/src/format/serialize.rs", "ebi/src/format/deserialize.rs", "ebi/src/compressor.rs: CompressorConfig::{serialize,from_le_bytes}"]}
{"id": "C23", "title": "End-to-end file round trip", "statement": "Encoding any non-empty sequence of records with any positive chunk option and a lossless scheme produces a file that the decoder opens, and materializing it without bitmask outputs exactly the original bytes.", "quantifier": "every non-empty input, every chunk option with positive size, each lossless scheme and its admissible inputs", "why_tests_cant": "number of chunks, offsets and last partial chunk vary without bound", "anchors": ["ebi/src/api/encoder.rs: Encoder::encode", "ebi/src/encoder.rs: FileWriter, ChunkWriter::write", "ebi/src/decoder.rs: FileReader", "ebi/src/api/decoder.rs: Decoder::{new,materialize}"]}
{"id": "C24", "title": "Chunk directory is consistent", "statement": "In every encoded file chunk footers are contiguous: logical offsets start at 0 and each equals the number of records before it; physical regions start right after the header/config, are contiguous, non-overlapping and end at the footer offset; record counts add up to the file's total.", "quantifier": "every input, chunk option and compressor", "why_tests_cant": "an invariant over the loop producing an unbounded number of chunks", "anchors": ["ebi/src/encoder.rs: write_footer, ChunkWriter::write, chunk_footers", "ebi/src/decoder.rs: GeneralChunkHandle::{number_of_records,chunk_size,logical_record_range}"]}
{"id": "C25", "title": "Chunk size option is honoured", "statement": "With a record-count option c every chunk but the last holds exactly c records and the last between 1 and c; with a best-effort byte-size option b the same holds with c = ceil(3b/16) (the documented 1.5x estimate); with Full there is one chunk holding everything.", "quantifier": "every input length and option value", "why_tests_cant": "divisibility corner cases over all pairs", "anchors": ["ebi/src/encoder.rs: ChunkOption::{reach_limit}, read_less_or_equal, ChunkWriter::write"]}
{"id": "C26", "title": "Encoding does not depend on how the input is delivered", "statement": "The encoded file depends only on the concatenation of the bytes delivered by the input reader, not on how the reader splits them into short reads or how often it reports Interrupted.", "quantifier": "every read schedule (any split of the byte stream into non-empty reads, any placement of Interrupted errors)", "why_tests_cant": "schedules are unbounded; tests use in-memory slices that never short-read", "anchors": ["ebi/src/encoder.rs: read_less_or_equal, ChunkWriter::write"]}
{"id": "C27", "title": "Trailing partial record", "statement": "If the input length is not a multiple of 8 bytes, the file contains exactly the floor(len/8) complete records.", "quantifier": "every input byte length", "why_tests_cant": "all residues and chunk alignments", "anchors": ["ebi/src/encoder.rs: ChunkWriter::write, read_less_or_equal"]}
{"id": "C28", "title": "Empty input", "statement": "Encoding an empty input produces a file that the decoder can open and that reports zero records.", "quantifier": "every scheme and chunk option with empty input", "why_tests_cant": "state the edge explicitly: tests skip it", "anchors": ["ebi/src/api/encoder.rs: Encoder::encode", "ebi/src/decoder.rs: fetch_footer"]}
{"id": "C29", "title": "A file cut off by a crash is not silently accepted", "statement": "If encoding stops at any point before the footer offset is patched into the header, opening the remaining bytes fails with an error rather than yielding a decoder over made-up data.", "quantifier": "every prefix of the sequence of writes performed by the encoder", "why_tests_cant": "crash points are unbounded and never exercised by tests", "anchors": ["ebi/src/api/encoder.rs: Encoder::encode", "ebi/src/encoder.rs: write_header, write_footer_offset", "ebi/src/decoder.rs: fetch_header, seek_to_footer, fetch_footer"]}
{"id": "C30", "title": "Materialize with a bitmask", "statement": "materialize outputs exactly the values whose global record index is in the bitmask (all if none), in record order, independently of how records are split into chunks; indices outside the data are ignored.", "quantifier": "every data set, chunking and bitmask; files of fewer than 2^32 records where record numbers matter (larger ones: C54)", "why_tests_cant": "bitmask/chunk boundary interactions are combinatorial", "anchors": ["ebi/src/decoder/query.rs: default_materialize", "ebi/src/api/decoder.rs: Decoder::materialize"]}
{"id": "C31", "title": "Filter returns exactly the matching records", "statement": "filter returns the set of global record indices inside the bitmask whose value satisfies the predicate; nothing outside the bitmask or the data is ever returned; independent of chunking.", "quantifier": "every data set, chunking, predicate and bitmask, each scheme whose reader answers with the default queries (all but BUFF and DeltaSprintz, for which see C36-C39); files of fewer than 2^32 records where record numbers matter (larger ones: C54)", "why_tests_cant": "combinatorial", "anchors": ["ebi/src/decoder/query.rs: default_filter, PredicateImpl::eval, RangeImpl::eval", "ebi/src/api/decoder.rs: Decoder::filter"]}
{"id": "C32", "title": "Filter-then-materialize equals filter_materialize", "statement": "filter_materialize outputs exactly what materialize outputs when given the result of filter as its bitmask.", "quantifier": "every data set, chunking, predicate and bitmask, each scheme whose reader answers with the default queries (all but BUFF and DeltaSprintz, for which see C36-C39); files of fewer than 2^32 records where record numbers matter (larger ones: C54)", "why_tests_cant": "agreement of two code paths on all inputs", "anchors": ["ebi/src/decoder/query.rs: default_filter_materialize, default_filter, default_materialize", "ebi/src/api/decoder.rs"]}
{"id": "C33", "title": "Sum/min/max aggregate exactly the selected records", "statement": "sum, min and max with a bitmask aggregate exactly the selected records; min/max are independent of chunking; sum adds per-chunk partial sums in order; an empty selection yields 0, +inf, -inf respectively.", "quantifier": "every data set, chunking and bitmask, each scheme whose reader answers with the default queries (all but BUFF and DeltaSprintz, for which see C36-C39); files of fewer than 2^32 records where record numbers matter (larger ones: C54)", "why_tests_cant": "combinatorial; chunk skipping is an optimisation that must not change results", "anchors": ["ebi/src/decoder/query.rs: default_sum, default_min, default_max", "ebi/src/api/decoder.rs: Decoder::{sum,min,max}"]}
{"id": "C34", "title": "Skipping chunks outside the bitmask is sound", "statement": "A query that skips chunks having no selected record gives the same result as the one that visits every chunk.", "quantifier": "every chunk list, every bitmask, each scheme whose reader answers with the default queries (all but BUFF and DeltaSprintz, for which see C36-C39); files of fewer than 2^32 records where record numbers matter (larger ones: C54)", "why_tests_cant": "an optimisation must be transparent for all inputs", "anchors": ["ebi/src/api/decoder.rs: Decoder::{materialize,filter,filter_materialize,sum,min,max}"]}
{"id": "C35", "title": "Predicate semantics on doubles", "statement": "Eq/Ne/Range predicates follow IEEE comparison on every pair of doubles: Ne is the negation of Eq, a range is the conjunction of its bounds, NaN satisfies neither Eq nor a bounded range, and -0.0 equals +0.0.", "quantifier": "every pair of 64-bit patterns", "why_tests_cant": "2^128 pairs", "anchors": ["ebi/src/decoder/query.rs: PredicateImpl::eval, RangeImpl::eval"]}
{"id": "C36", "title": "BUFF in-situ filter agrees with the decoded fixed-point values", "statement": "Filtering BUFF data without decompressing returns the same records as comparing each stored fixed-point value with the fixed-point predicate constant, restricted to the bitmask.", "quantifier": "every chunk, every predicate constant, every bitmask, files of fewer than 2^29 records", "why_tests_cant": "sub-column short-circuiting has many branches depending on widths and partial matches", "anchors": ["ebi/src/decoder/chunk_reader/buff.rs: filter", "ebi/src/decoder/chunk_reader/buff/filter_eq.rs", "ebi/src/decoder/chunk_reader/buff/filter_cmp.rs"]}
{"id": "C37", "title": "BUFF SIMD paths agree with the scalar paths", "statement": "Splitting a sub-column into head, 32-byte blocks and tail covers every record exactly once in order, and the vectorised comparison of flipped bytes selects the same records as the scalar unsigned comparison.", "quantifier": "every sub-column length, logical offset and predicate byte", "why_tests_cant": "alignment x length x value space", "anchors": ["ebi/src/decoder/chunk_reader/buff/filter.rs: split_for_simd_processing", "ebi/src/decoder/chunk_reader/buff/filter_eq.rs: equal_simd", "ebi/src/decoder/chunk_reader/buff/filter_cmp.rs: comp_simd"]}
{"id": "C38", "title": "BUFF in-situ sum/min/max agree with the decoded fixed-point values", "statement": "Summing / taking the minimum / maximum of BUFF data without decompressing gives the result computed from the stored fixed-point integers of the selected records.", "quantifier": "every chunk and bitmask, files of fewer than 2^29 records", "why_tests_cant": "sub-column pruning depends on data distribution", "anchors": ["ebi/src/decoder/chunk_reader/buff/sum.rs", "ebi/src/decoder/chunk_reader/buff/min_max.rs"]}
{"id": "C39", "title": "DeltaSprintz in-situ queries agree with the decoded values", "statement": "Filter, sum, min and max evaluated on compressed DeltaSprintz data agree with evaluating them on the stored quantised integers of the selected records.", "quantifier": "every chunk, predicate constant and bitmask, files of fewer than 2^32 records", "why_tests_cant": "running prefix sums over unbounded data", "anchors": ["ebi/src/decoder/chunk_reader/sprintz.rs: filter, sum, min, max"]}
{"id": "C40", "title": "Query answers do not depend on earlier queries", "statement": "On one chunk reader, the answer of each query is the same whatever queries were issued before it.", "quantifier": "every sequence of queries on every chunk", "why_tests_cant": "histories are unbounded; caching and reader cursor are hidden state", "anchors": ["ebi/src/decoder/chunk_reader.rs: default_decompress", "ebi/src/decoder/chunk_reader/sprintz.rs", "ebi/src/decoder/chunk_reader/buff.rs", "ebi/src/decoder/chunk_reader/general_xor.rs"]}
{"id": "C41", "title": "1-nearest neighbour search", "statement": "knn1 returns the index of a vector with minimal squared distance to the target among the consecutive vectors of the data, wherever vectors fall relative to chunk boundaries.", "quantifier": "every data set, chunking and target", "why_tests_cant": "straddling patterns are combinatorial", "anchors": ["ebi/src/api/decoder.rs: Decoder::knn1", "ebi/src/decoder/query.rs: default_distance_squared"]}
{"id": "C42", "title": "Matrix multiplication", "statement": "matmul returns the row-major products of each data matrix with the target matrix when shapes are compatible, and PreconditionsNotMet otherwise, independently of chunking.", "quantifier": "every data set, shape and chunking", "why_tests_cant": "straddling patterns are combinatorial", "anchors": ["ebi/src/api/decoder.rs: Decoder::matmul", "ebi/src/decoder/query.rs: default_dot_product"]}
{"id": "C43", "title": "Expression evaluation", "statement": "Evaluating an expression over chunk readers applies it pointwise to the selected records of its columns; expressions with nothing but literals are rejected with an error and never panic.", "quantifier": "every expression tree, set of columns and bitmask", "why_tests_cant": "trees are unbounded", "anchors": ["ebi/src/decoder/expr.rs: Expr::compute_chunk, max_chunk_reader_index"]}
{"id": "C44", "title": "Aggregation over expressions", "statement": "Aggregating an expression over all chunks equals aggregating the concatenation of its pointwise values (sum per-chunk), and computing several aggregations together gives the same answers as computing them one by one.", "quantifier": "every list of aggregations, columns and bitmask", "why_tests_cant": "batch/single agreement over arbitrary lists", "anchors": ["ebi/src/api/decoder.rs: Aggregation::{compute,compute_multiple}, AggregationResult::concat"]}
{"id": "C45", "title": "Elapsed-time metadata round trips", "statement": "Segmented execution times survive conversion to their on-disk nanosecond form and back exactly.", "quantifier": "every duration below 2^64 seconds", "why_tests_cant": "2^94 durations", "anchors": ["ebi/src/time.rs: SerializableSegmentedExecutionTimes, Duration conversions"]}
{"id": "C46", "title": "Corrupt record streams never produce more data than announced nor hang", "statement": "Decoding an arbitrary byte string as a Gorilla/Chimp/Chimp128/Elf chunk terminates after consuming at most its bits, and yields at most one value per bit of the string.", "quantifier": "every byte string", "why_tests_cant": "all malformed inputs", "anchors": ["ebi/src/decoder/chunk_reader/gorilla.rs", "ebi/src/decoder/chunk_reader/chimp.rs", "ebi/src/decoder/chunk_reader/chimp_n.rs", "ebi/src/decoder/chunk_reader/elf.rs"]}
{"id": "C47", "title": "Reported sizes match the file", "statement": "The sizes the decoder reports (footer size, total chunk size, total file size) add up to the actual length of the encoded file, and the on-disk region of each chunk is exactly the bytes its compressor produced.", "quantifier": "every encoded file", "why_tests_cant": "depends on number of chunks and config size", "anchors": ["ebi/src/api/decoder.rs: Decoder::{footer_size,total_file_size,total_chunk_size}", "ebi/src/encoder.rs: write_footer"]}
{"id": "C48", "title": "Files of a foreign format are rejected", "statement": "Opening bytes whose first four bytes are not the format's magic number, or whose checksum does not match, fails.", "quantifier": "every byte string", "why_tests_cant": "tests never feed foreign files", "anchors": ["ebi/src/decoder.rs: fetch_header, fetch_footer", "ebi/src/format/deserialize.rs: FileHeader::try_from_le_bytes"]}
{"id": "C49", "title": "filter_materialize agrees with filter for in-situ readers", "statement": "On BUFF and DeltaSprintz files, filter_materialize outputs exactly what materialize outputs when given the result of filter as its bitmask.", "quantifier": "every BUFF or DeltaSprintz file, chunking, predicate and bitmask", "why_tests_cant": "The two paths differ only for constants that round onto a stored value or bounds outside a chunk's range; a sample of predicates rarely hits these for every chunking.", "anchors": ["ebi/src/decoder/chunk_reader/buff.rs: filter_materialize", "ebi/src/decoder/chunk_reader/sprintz.rs: filter", "ebi/src/decoder/query.rs: default filter_materialize"]}
{"id": "C50", "title": "Success means the whole file is on the output", "statement": "If Encoder::encode returns Ok on an output positioned at its start, the output holds exactly the encoded file, followed by whatever it held beyond the file's end; how many bytes the output takes per write does not matter, interrupted writes are retried, and encoding never loops forever.", "quantifier": "every scheme, input, prior content of the output, and behaviour of its write, flush and seek calls", "why_tests_cant": "Tests write to in-memory cursors and regular files, which accept everything in one call.", "anchors": ["ebi/src/api/encoder.rs: Encoder::encode", "ebi/src/encoder.rs: write_header, ChunkWriter::write, write_footer, write_footer_offset, write_elapsed_time"]}
{"id": "C51", "title": "What a failed encoding leaves behind", "statement": "If Encoder::encode fails, because of the output, the input or a panic, the output holds a first part of the file without its footer offset, or the whole file with the footer offset or the elapsed time partly written; in the last case it is the complete file of a faster run.", "quantifier": "every scheme, input, prior content and failure point", "why_tests_cant": "Failure can strike after any byte; tests inject none.", "anchors": ["ebi/src/api/encoder.rs: Encoder::encode", "ebi/src/encoder.rs: footer_offset_slot_offset, elapsed_time_slot_offset"]}
{"id": "C52", "title": "Bytes after the end of a file are harmless", "statement": "A file followed by arbitrary bytes (for example left from a longer older file) opens with the same metadata and answers every query of the decoder API as the file alone.", "quantifier": "every file whose chunks can be loaded, every trailing byte string, every query", "why_tests_cant": "Tests always create fresh files.", "anchors": ["ebi/src/decoder.rs: seek_to_footer, fetch_footer, seek_to_chunk", "ebi/src/api/decoder.rs: Decoder::new and queries", "ebi/src/api/encoder.rs: EncoderOutput::from_vec"]}
{"id": "C53", "title": "Output of materialize and filter_materialize", "statement": "If Decoder::materialize or Decoder::filter_materialize returns Ok, the output device holds exactly the selected values, written at its position; if it fails, the device holds a byte prefix of them; on a device that accepts everything the outcome is the one of the query. The same holds when the output is buffered (DecoderOutput::into_buffered).", "quantifier": "every file, query, prior content and position of the output, short writes, interruptions and failure point", "why_tests_cant": "Tests write to vectors, which never fail, and read them after dropping the writer.", "anchors": ["ebi/src/api/decoder.rs: Decoder::materialize, Decoder::filter_materialize, DecoderOutput::into_buffered", "ebi/src/decoder/query.rs: default_materialize, default_filter_materialize"]}
{"id": "C54", "title": "Files of 2^32 records and more", "statement": "Queries on a file of 2^32 or more records return the same as on a smaller one: with a bitmask (whose members are 32-bit record numbers) exactly the selected records, without one all records; filter names no record that does not match.", "quantifier": "every data set of 2^32 or more records, chunking, predicate and bitmask", "why_tests_cant": "The smallest such file has 32 GiB of input.", "anchors": ["ebi/src/decoder.rs: logical_record_range_u32", "ebi/src/decoder/query.rs: default_materialize, default_filter, default_filter_materialize", "ebi/src/api/decoder.rs: Decoder::{materialize,filter,filter_materialize,sum,min,max}"]}
{"id": "C55", "title": "Size of compressed chunks", "statement": "No codec expands a chunk beyond a fixed bound: per value at most 77 bits for Gorilla, 69 for Chimp and Chimp128, 80 for Elf, 75 for Elf over Chimp, 72 for RLE, 64 for Uncompressed, DeltaSprintz and BUFF, plus a constant. A value equal to its predecessor costs 1 bit (Gorilla), 2 bits (Chimp, XOR layer of Elf) or 9 bits (Chimp128). Chimp128 refers to the newest of the last 128 values that agrees in the low 14 bits, so a value seen among them costs 9 bits unless overshadowed. A run of n equal values takes ceil(n/255) fields of 9 bytes in RLE. BUFF stores every value in the least width holding the range of the chunk.", "quantifier": "every chunk, every history of values, every state of the compressor", "why_tests_cant": "Tests compress a few data sets and print ratios; they neither search for the worst case nor notice a codec that still decodes but refers to the wrong earlier value.", "anchors": ["ebi/src/compressor/gorilla.rs: write_next_value", "ebi/src/compressor/chimp.rs: compress_value", "ebi/src/compressor/chimp_n.rs: compress_value", "ebi/src/compressor/elf.rs: compress_float_inner, add_value", "ebi/src/compressor/run_length.rs", "ebi/src/compressor/buff.rs", "ebi/src/compressor/sprintz.rs"]}
{"id": "C56", "title": "Damage stays in its chunk", "statement": "A query reads nothing but the header, the footer and the bytes of the chunks it needs: those with the requested chunk id and a record in the bitmask. If bytes of one chunk of a complete file are damaged, the file opens with the same metadata, every query that can do without this chunk answers as on the intact file, and so all other records can still be read. The format has no checksum: with Uncompressed damaged chunk bytes are returned as values without an error.", "quantifier": "every file, every damage, every query; for complete files with fewer than 2^32 records every scheme", "why_tests_cant": "Tests read intact files only; a reader that runs into the next chunk or loads a chunk it skips goes unnoticed there.", "anchors": ["ebi/src/api/decoder.rs: Decoder::{materialize,filter,filter_materialize,sum,min,max}, chunk_reader_from_handle", "ebi/src/decoder.rs: seek_to_chunk, chunk_size, fetch_header, fetch_footer"]}
{"id": "C57", "title": "Unsafe blocks stay in their buffers", "statement": "No unsafe block of the crate whose safety depends on a length, an index or a success has undefined behaviour: the pointer loop of the DeltaSprintz compressor writes inside its reserved buffer whatever was compressed before, the unwrap_unchecked of the BUFF header never meet an error, the byte view used for reading a chunk lies inside its buffer for every chunk option (also where the computed size wraps around), the 32-byte vector loads of the BUFF filters stay inside the column whatever its length, and the raw buffer of expression evaluation exposes initialised elements only, whatever is written into it. Each of them computes what the safe list version computes. When materialize fails inside an expression its buffer is leaked.", "quantifier": "every input, every earlier use of a buffer, every growth policy of Vec, every chunk option, every sequence of writes", "why_tests_cant": "Undefined behaviour need not show in a test; the boundary cases (wrapping sizes, stale buffers, columns shorter than a vector) are not in the test data.", "anchors": ["ebi/src/compressor/sprintz.rs: zigzag_delta_num_bits", "ebi/src/compressor/buff.rs: buff_simd256_encode", "ebi/src/encoder.rs: read_less_or_equal", "ebi/src/decoder/chunk_reader/buff/filter_eq.rs: equal_simd", "ebi/src/decoder/chunk_reader/buff/filter_cmp.rs: comp_simd", "ebi/src/decoder/expr.rs: compute_chunk"]}
{"id": "C58", "title": "ALP framing", "statement": "If the numeric kernels of ALP and ALP-RD are lossless on one vector of 1024 values, then ALP is lossless on chunks of every size: cut into row groups and vectors, completed and stored by the binding, the values are read back unchanged; the compressor does not read past its input, the decompressor consumes exactly the stored bytes and writes only inside its buffer. The output buffer of compress_double suffices for fewer than 1024 values, and for more if no ALP vector needs more than 16366 bytes; lossless kernels alone do not guarantee this, a chunk of 1024 values can overrun it. From every proper prefix of a compressed chunk the decompressor reads past the end of its input.", "quantifier": "every chunk of every length, every set of kernels with any internal state, every prefix", "why_tests_cant": "The number of row groups, the incomplete vector and the exception counts range over all inputs; over-reads and overruns need not show.", "anchors": ["alp-binding/include/compressor_specialized.hpp: compress", "alp-binding/include/compressor_specialized.hpp: decompress", "alp-binding/src/lib.rs: compress_double", "alp-binding/src/lib.rs: decompress_double", "alp-binding/src/lib.rs: worst_case_compression_size_double"]}
{"id": "C59", "title": "Expressions do not depend on how each column is cut into chunks", "statement": "Aggregating an expression over several files with the same number of records gives the same result however each file is cut into chunks: values of the same record number are combined. What the code computes, for files cut in any way: for each chunk number of the first file, the k-th selected value of that chunk in one file is combined with the k-th selected value of the chunk of the same number in the others, up to the shortest; this is the expression on equal record numbers if the chunks cover the same records; further chunks of the other files are ignored, and a file with fewer chunks than the first makes the computation panic.", "quantifier": "all expressions, all files cut in any way, all bitmasks and aggregations", "why_tests_cant": "The tests use one chunk size for all files.", "anchors": ["ebi/src/api/decoder.rs: Aggregation::compute", "ebi/src/decoder/expr.rs: Expr::compute_chunk"]}
{"id": "C60", "title": "A query that failed with an error fails again", "statement": "A query on a chunk reader that returned an error, and was therefore told that the chunk is damaged, does not succeed when it is repeated on the same reader: after an error the reader never returns made-up values. Uncompressed, RLE, Gorilla, Chimp, Chimp128 and ElfOnChimp readers fail forever, for every query; BUFF readers are unchanged by an error; DeltaSprintz readers repeat the error for queries that start over, and for all queries if the width in the header is at most 64 and the query was the first. It fails for Elf (a later attempt decodes what is left of the chunk), for DeltaSprintz with a wider header, and for Zstd, Gzip and Snappy, where a retry decodes the bytes after the chunk.", "quantifier": "all chunk contents, all sequences of queries before and between, all cursor positions a failed read may leave, all external libraries", "why_tests_cant": "No test repeats a query after an error; which bits are left depends on where decoding stopped in arbitrary damaged data.", "anchors": ["ebi/src/decoder/chunk_reader/general_xor.rs: GeneralXorReader::decompress", "ebi/src/decoder/chunk_reader/gzip.rs: GzipReader::decompress", "ebi/src/decoder/chunk_reader/sprintz.rs: DeltaSprintzReader", "ebi/src/io/bit_read.rs: BitRead2"]}
{"id": "C61", "title": "A chunk that is cut short is reported, never decoded to something else", "statement": "A reader that gets only the first bytes of a chunk (the footer announces too few, or an offset is wrong) returns an error or the answer the whole chunk gives; it never answers anything else and never panics. For the schemes implemented in the repository, a new reader on a piece of any chunk, also of a damaged one, answers a query only as it would on all the bytes. On a written chunk Uncompressed, RLE and DeltaSprintz report every missing byte; Gorilla, Chimp, Chimp128, Elf and ElfOnChimp report two or more, and a single one unless it holds only padding, in which case all values are there. It fails for BUFF, where the plain decoder panics on every cut, and for Zstd a library that returns less than announced gives zeros.", "quantifier": "all chunk bytes, all cut positions, all queries with all bitmasks and predicates, all libraries", "why_tests_cant": "No test cuts a chunk; cut positions times contents times queries is unbounded.", "anchors": ["ebi/src/decoder/chunk_reader/general_xor.rs: GeneralXorReader::decompress", "ebi/src/decoder/chunk_reader/sprintz.rs: DeltaSprintzReader", "ebi/src/decoder/chunk_reader/buff/decode.rs: decode", "ebi/src/decoder/chunk_reader/zstd.rs: ZstdReader::decompress"]}
{"id": "C62", "title": "The TPC-H driver computes queries 1 and 6 over the columns it wrote", "statement": "From the record batches the driver collects the decimal columns by name, in batch order, nulls as NaN, and fails exactly when a column other than the two flags is not decimal. With every scheme, for a table of equally long nonempty columns that the scheme carries, query 6 returns the sum of price times discount over exactly the rows with discount from 0.05 to 0.07 and quantity below 24; query 1 returns the sums of quantity, price, discounted price and charge, the averages and the count; each result stands under its name. It fails: the averages of query 1 come out as price, quantity, discount and are named discount, price, quantity; in the simplified query the announced sum of the discount is overwritten; with BUFF query 6 also counts rows outside the discount range when all quantities lie on one side of 24; a null in a column cuts it short in the XOR schemes without an error.", "quantifier": "all record batches, all tables, all thirteen schemes, all clocks and elapsed times", "why_tests_cant": "The driver has no tests; it prints numbers that nobody compares with an independent answer.", "anchors": ["experimenter/src/tpch.rs: extract_columns", "experimenter/src/tpch.rs: process_h06", "experimenter/src/tpch.rs: process_h01", "experimenter/src/tpch.rs: process_simplified_h01", "experimenter/src/tpch.rs: get_h06_predicate"]}
{"id": "C63", "title": "Matrix multiplication on the device agrees with matmul", "statement": "With the feature cuda, Decoder::matmul_cuda returns, on a device that multiplies column-major matrices, the same batch of products as Decoder::matmul on the same arguments, whatever the device buffers held before; sizes that do not fit are refused, never computed with. It fails: the target is read row by row where matmul reads it column by column, so the result is that of matmul with the transposed target; a matrix that straddles chunks panics; matrices of 2^31 entries and more are refused; a target without columns panics; a context whose result buffer is longer than the result panics.", "quantifier": "all files, schemes, shapes, targets, devices, contents and lengths of the buffers", "why_tests_cant": "The feature needs a GPU and is not built in tests; agreement with matmul is not tested.", "anchors": ["ebi/src/api/decoder.rs: Decoder::matmul_cuda", "ebi/src/decoder/chunk_reader.rs: GeneralChunkReader::gemm", "cuda-binding/src/lib.rs: Context::gemm", "cuda-binding/src/lib.rs: Context::config_matmul_row_major"]}
{"id": "C64", "title": "Precision and scale chosen from the text are what the numbers need", "statement": "For every decimal number as f64::from_str accepts it, get_decimal_precision returns the number of digits after the point needed to write it without exponent (so value * 10^p is an integer, and no smaller p does unless the last digit is 0). get_appropriate_precision returns, for every non-empty file, the largest precision that at least one record in a hundred reaches (with exact_precision the largest of all), so fewer than one record in a hundred needs more; the empty file is an error. It fails for an upper-case exponent (1E-5 counts as precision 0) and for exponents that do not fit i32.", "quantifier": "all literals (sign, digits, fraction, exponent), all files of such literals with at most 2^52 records", "why_tests_cant": "The doc tests compare a dozen literals and four files, all with lower-case e; the one percent rule is a comparison of rounded f64 quotients.", "anchors": ["experimenter/src/lib.rs: get_decimal_precision", "experimenter/src/lib.rs: get_appropriate_precision", "experimenter/src/lib.rs: get_appropriate_scale", "tools/src/collect-stats.rs: get_decimal_precision"]}
{"id": "C65", "title": "DeltaSprintz with the default scale gives decimal data back bit for bit", "statement": "A text file of decimal numbers is converted to the doubles nearest to them (csv2bin); with the scale 10^p of the default configuration (exact precision) the DeltaSprintz file decodes to the same doubles, bit for bit, provided 10^p fits the 32 bits the scale is stored in, every numerator is below 2^51 and no number is a negative zero. A filter with constants of the same precision answers exactly the records that satisfy it as doubles. round_by_scale leaves such values unchanged. The limits are real: with 10 to 19 decimals the default configuration is still created, and no record except zero comes back.", "quantifier": "all files of decimal literals, all precisions, signs, numerators, predicates and bitmasks", "why_tests_cant": "Round-trip tests of lossy schemes round the data first with the same formula and compare a few values; the tool chain from text to file is not tested.", "anchors": ["tools/src/csv2bin.rs: process_file", "experimenter/src/main.rs: create_default_compressor_config", "experimenter/src/lib.rs: round_by_scale", "ebi/src/compressor/sprintz.rs: compress", "ebi/src/decoder/chunk_reader.rs"]}
{"id": "C66", "title": "The UCR2018 driver reports the accuracy of nearest-neighbour classification", "statement": "From two tab-separated files of labelled series the driver writes the training series into one file, asks knn1 for every test series, and reports the share of test series whose nearest training series (the last of several) carries their label. Among the configurations that give the data back the accuracy does not depend on the compression, on the repetitions (at least one) or on the precision argument of unrelated schemes; DeltaSprintz with the chosen scale is one of them when every number has at most the chosen decimals. It fails: the first series of each file is dropped as if it were a header, the scale is cast to i32 so rounding is wrong from ten decimals on, a one-line test file panics, a test series with no numeric distance panics, and with no repetition the accuracy is 0.", "quantifier": "all training and test files of decimal literals, all schemes, all series lengths, all repetition counts", "why_tests_cant": "The driver has no tests; the accuracy looks plausible on any data set with more than a handful of series.", "anchors": ["experimenter/src/main.rs: slurp_file", "experimenter/src/main.rs: ucr2018_command", "experimenter/src/main.rs: ucr2018_knn1_command", "ebi/src/api/decoder.rs: knn1"]}
{"id": "C67", "title": "The constants of the filter experiments are the percentiles they are named after", "statement": "create_config_command sorts the records of a data set and writes five predicates: greater than the values at 10, 50 and 90 percent, equal to and different from the value at 50 percent. The constant at k percent is a record with at most n·k/100 records below it and fewer than n − n·k/100 above it, and it is the only one up to the sign of zero. On a file that gives the data back (any default scheme, or DeltaSprintz on decimals) and with constants that survive the JSON file, the filters answer that many records: fewer than 90, 50 and 10 percent; with distinct records exactly n − 1 − n·k/100; eq at least one and exactly one with distinct records; eq and ne together n. A NaN is an error, an empty data set a panic, an infinite percentile an error, equal records give empty answers to all three ranges. A constant that the JSON round trip moves off the data makes eq answer nothing and ne everything.", "quantifier": "all data sets below 2^57 records (2^32 for the answers), all default schemes and DeltaSprintz on decimals of up to nine places, any number round trip through JSON", "why_tests_cant": "The selectivity of the filters is what the experiments rest on and nothing checks it; ties, infinities and the JSON round trip show only on particular data.", "anchors": ["experimenter/src/main.rs: create_config_command", "experimenter/src/main.rs: process_experiment_for_compressor", "ebi/src/api/decoder.rs: filter"]}
{"id": "C68", "title": "BUFF and DeltaSprintz are run only on data they can quantise", "statement": "Before running a lossy configuration the driver multiplies the largest record with the scale and skips the configuration when the product is not finite or above 2^63. So a configuration that is run clips no record when the products are rounded and converted to i64, and one that is skipped has a record that would be clipped. It fails: the search for the largest record starts at zero, so negative records are never looked at and −1e300 passes with any scale and comes back as something else; bytes after the last record are merged with the end of that record and can make the check skip a configuration whose records all fit.", "quantifier": "all files, all scales below 2^64, all records", "why_tests_cant": "The driver has no tests; a clipped record changes only the reported ratios.", "anchors": ["experimenter/src/main.rs: process_experiment_for_compressor", "experimenter/src/main.rs: process_experiment_for_dataset", "ebi/src/compressor/sprintz.rs: delta_sprintz_compress_impl"]}
{"id": "C69", "title": "Every cell of the result table holds one run of its configuration", "statement": "all_patch_command first runs the patched compressors on the data sets that are not patched, then all compressors on the patched data sets, and all_command is the case where everything is patched. At the end the cell of a data set and a compression method holds the results of one run of its configuration; cells of compressors that were not patched are kept; a data set with a saved result is not run again. It fails: clear() does not clear max and sum, and the test that should leave patched data sets out of the first loop compares a path with a stem and is never true, so max and sum of a patched compressor on a patched data set hold two runs, and patching again appends to what was there; a configuration that the check leaves out gets a cell without runs, which makes the average ratio and throughput of its method NaN; the file in the save directory holds one cell but is read as a map of cells, so nothing is ever resumed; the average throughput is divided by the number of runs once too often.", "quantifier": "all listings of data sets and configurations, all outcomes of the runs, any table and save directory at the start, any order of the hash set", "why_tests_cant": "Each of these needs a second pass over the same table or a data set that is left out; the output has the right shape and plausible numbers either way.", "anchors": ["experimenter/src/lib.rs: AllOutputInner", "experimenter/src/lib.rs: AllOutput", "experimenter/src/main.rs: all_patch_command", "experimenter/src/main.rs: process_experiment_for_dataset", "experimenter/src/main.rs: process_experiment_for_compressor", "experimenter/src/main.rs: create_saved_file_at"]}
{"id": "C70", "title": "A precision set on a decoder reduces what is materialized, and nothing else", "statement": "On a BUFF file opened with precision p of the table (b fraction bits), one list of reduced values answers materialize under every bitmask, matmul and knn1. Each of them is decoded from an integer at most the stored one and below it by less than 2^(F-b): as a number it is never above the fully decoded value and below it by less than 2^-b, from p = 1 on by less than half a unit of decimal p. A precision with at least the stored bits changes nothing; one beyond the table panics; filters, sums, minima and maxima, and every other scheme, take no notice of it. It fails: the documentation's claim that the values are the same after rounding at the precision (0.506 read with precision 2 rounds to 0.50, not 0.51), and on one decoder the values that are materialized need not satisfy the filter that selects them nor reach the maximum that is reported.", "quantifier": "all records that are accepted, all scales, precisions, bitmasks, targets and shapes; the last part: all files", "why_tests_cant": "The reduction depends on the position of byte boundaries, on the minimum of the chunk and on the rounding of the decoded number; the repository tests the precision only on a chunk and only for materialize.", "anchors": ["ebi/src/api/decoder.rs: Decoder::with_precision", "ebi/src/api/decoder.rs: Decoder::precision", "ebi/src/decoder/chunk_reader.rs: GeneralChunkReader::with_precision", "ebi/src/decoder/chunk_reader.rs: Reader::decompress_with_precision", "ebi/src/decoder/chunk_reader/buff.rs: BUFFReader", "ebi/src/compression_common/buff.rs"]}
{"id": "C71", "title": "The matrix experiment multiplies the matrices it has generated", "statement": "The assertion of the matrix command lets exactly the sizes 1, 2, 4, ..., 4096 pass. Every generated entry is the double nearest to a number with eight decimals from -4 to 4. For every configuration without quantisation the answer is the product of each of the 40 generated matrices with the target, summed in the order of the columns, bit for bit and whatever the precision; DeltaSprintz answers the same numbers (a zero may differ in sign). BUFF at a precision of the table with b fraction bits multiplies matrices whose every entry is within 2^-28 + 2^-b of the generated one.", "quantifier": "all sizes below 2^32, all random numbers from 0 to below 1, all configurations, all precisions (of the table for BUFF)", "why_tests_cant": "The matrices are random and the command prints five numbers of the result; nothing compares the result of one configuration with that of another or with the generated matrices.", "anchors": ["experimenter/src/main.rs: matrix_command", "experimenter/src/lib.rs: round_by_scale", "ebi/src/api/decoder.rs: Decoder::matmul"]}
{"id": "C72", "title": "Answers do not depend on the scheme or on how the records are cut into chunks", "statement": "Two files of the same records, written with any two schemes without quantisation and any chunk options and parameters, give the same answers: materialize, filter and filter_materialize identical, min and max equal as numbers, the nearest vector and the matrix products identical where both files keep the vectors whole. The sum of finite values is finite and within (longest chunk + chunks) * 2^-52 of the sum of the absolute values from the exact sum, and it is exact (hence the same bits from both files) when the values are multiples of one power of two and their absolute values add up to less than 2^53 of it. In general the sum does depend on the chunks.", "quantifier": "all records, all pairs of configurations but BUFF and DeltaSprintz, all chunk options, predicates, bitmaps and precisions", "why_tests_cant": "Tests query one file at a time with sums of small integers, where no rounding happens; that two files agree for all inputs, and how far sums may drift apart, is a statement over pairs of files.", "anchors": ["ebi/src/api/decoder.rs: sum, min, max, filter, materialize, knn1, matmul", "ebi/src/decoder/query.rs: default_sum"]}
{"id": "C73", "title": "The double arithmetic the queries are computed with is IEEE-754 arithmetic", "statement": "The float operations of the model (which stand for Rust's f64 in every query, quantisation and text conversion) are correctly rounded: the result of + - * / on finite doubles, of integer to double conversion and of decimal text to double conversion is a double such that no other is nearer to the exact value, of two that are as near the one with an even last bit, infinite exactly from 2^1024 - 2^970 on; signs of zeros, NaN and infinities are those of the standard; comparison is comparison of values; round goes to the nearest integer, halves away from zero; the cast to i64 truncates and saturates; min and max ignore NaN. Such a result is unique up to the sign of a zero.", "quantifier": "all doubles, all integers, all decimal numbers", "why_tests_cant": "Tests compare hardware results with hardware results on a few values; that the arithmetic every other theorem is stated with is the one of the standard is a statement over all pairs of doubles.", "anchors": ["ebi/src/decoder/query.rs: default_sum, default_min, default_max", "ebi/src/compressor/sprintz.rs: delta_sprintz_compress_impl", "ebi/src/compression_common/buff.rs", "ebi/src/api/decoder.rs: matmul, knn1"]}
{"id": "C74", "title": "The statistics tool reports what the file holds, and where it does not", "statement": "collect-stats gives an error for a CSV file exactly when an item is no number, panics exactly when there are two or more numbers and one is NaN (and then writes no stats.json for any file), and otherwise reports: the last greatest and the first least value; the greatest and least decimal precision and binary exponent, where the exponent is the power of two the value reaches; the averages of precision, exponent and leading and trailing zeros of the XOR of neighbours, and the ratio of repeated bit patterns, each the exact rational number rounded once; an average value whose sum is off by at most n * 2^-52 of the sum of the absolute values; square roots of something that is not negative. stats.json holds per stem the last file of that stem that has statistics. The exponent average is right only while the exponents add up to an i32: for n zeros, 2099203 <= n <= 4198404, it is positive though every exponent is -1023.", "quantifier": "all texts, all lists of files, all lengths below the stated bounds, any square root", "why_tests_cant": "The tool has no tests; rounding of an average, the order of ties and the wrap at 2 million values are statements over all files.", "anchors": ["tools/src/collect-stats.rs: main, collect_stats_from_csv, compute_stats, mean_usize, mean_i32, mean_f64, std_dev_usize, std_dev_i32, std_dev_f64, xor_front_trail_stats, get_exponent_bits, get_non_unique_value_ratio"]}
{"id": "C75", "title": "The embedding experiment: what it runs, what it reports, what ends it", "statement": "For every data set and every one of the thirteen configurations the embedding experiment reports, per repetition, the size of the input (8 bytes a record), the size of the file, the size of its chunks alone, both ratios as exact quotients rounded once, the first five bytes of the file (the magic number first) and the first five bytes of the first record read back, which for the schemes without quantisation are those of the data set. The number of decimals is the precision rounded half up, a negative one none. BUFF and DeltaSprintz are left out exactly when that number, cut to 32 bits, exceeds twelve; otherwise they run with that power of ten, which is a scale BUFF supports. A data set without a precision, or without values, ends the experiment without any result. With ten decimals DeltaSprintz does not give back 1.0.", "quantifier": "all lists of data sets, all precisions, all values a configuration carries, all stamps", "why_tests_cant": "The experimenter has no tests; it compares only five bytes it prints and never checks them against the input.", "anchors": ["experimenter/src/main.rs: embedding_command", "experimenter/src/lib.rs: get_compress_statistics, DEFAULT_CHUNK_OPTION"]}
{"id": "C76", "title": "Which results the experimenter keeps and which it overwrites", "statement": "Numbered results go to the least free number, found after at most one try more than there are files; no file is changed, and results saved one after the other in an empty directory are numbered from 0. save_json_safely never changes a file and writes exactly when there is none. The per-data-set file holds the results of the last data set whose stem has the same stem: stems that differ only after their last dot share one file. UCR2018 names tell data set and precision, except that a data set X_p without precision and X with p decimals share one. Outputs of compress meet exactly for equal stems, and an input named x.ebi is lost unless compressed in memory. save_json_safely says Ok only for a complete file; write_output_json does so from 8 KiB on and below says Ok whatever the device does.", "quantifier": "all directories, names, values, JSON texts and device behaviours", "why_tests_cant": "The only test covers one overwrite by save_json_safely; names that meet and devices that fail are statements over all names and behaviours.", "anchors": ["experimenter/src/main.rs: save_output_json, save_ucr2018_json, save_embedding_json, write_output_json, create_saved_file_at, compress_command, main", "experimenter/src/lib.rs: save_json_safely"]}
{"id": "C77", "title": "What total_bytes_in counts", "statement": "For the compressor of every configuration: a new or reset one has counted 0 bytes; prepare leaves the count alone; after a sequence of successful calls of compress it is the size of the last input, except for Zstd and BUFF, where it is the size of all inputs since the last reset although only the last one is kept; after reset and one call it is the size of that input for all.", "quantifier": "all configurations, libraries, compressor states and sequences of inputs", "why_tests_cant": "The unit test compresses one fixed input on a new compressor and reads the count once; the difference for Zstd and BUFF shows after the second call only.", "anchors": ["ebi/src/compressor.rs: Compressor::total_bytes_in, test_total_bytes_in, test_reset", "ebi/src/compressor/*.rs: compress, reset"]}
{"id": "C78", "title": "The table by compression method holds the same results", "statement": "transpose of the result table puts the result of data set d and method m under m and d, and nothing else; no result is lost or doubled, whatever order the hash maps are walked in, and doing it twice gives every result back. The methods are exactly those compression_methods lists. aggregate_per_compression_method computes one value per method, from all results of the method and no others. map changes each result in place. The averages are NaN as soon as one data set has no run, depend on the order of the hash map, and divide by the number of runs once too often.", "quantifier": "all result tables, orders of iteration and aggregate functions", "why_tests_cant": "There is no test; HashMap order differs from process to process and losing a cell shows only for tables of a certain shape.", "anchors": ["experimenter/src/lib.rs: AllOutput::{map, compression_methods, dataset_names, transpose, aggregate_per_compression_method, average_decompression_throughput}"]}
{"id": "C79", "title": "The reported execution times are the sums of what was measured", "statement": "Measuring changes no answer. After a query (materialize, filter, filter_materialize, sum, min, max, knn1, matmul) the decoder's segmented execution times are, kind by kind, the sum of exactly the measurements stopped during that query; under which kinds they fall is fixed by the scheme and the query. The times in the footer are the sums of what was measured while encoding: a read, the compressor's steps and a write per chunk, and the read at the end. The code departs from this for expressions (the read made when a chunk is opened is dropped because compute_chunk resets the reader's timer), for compute on a bare column (nothing is added) and labels the sum over DeltaSprintz as comparison.", "quantifier": "all schemes, files, queries, bitmasks, expressions and durations of the single measurements", "why_tests_cant": "Durations differ from run to run, so no test compares them; a segment that is lost or counted twice leaves plausible numbers in the published tables.", "anchors": ["ebi/src/time.rs", "ebi/src/encoder.rs: ChunkWriter::write", "ebi/src/api/encoder.rs: Encoder::encode", "ebi/src/api/decoder.rs: Decoder::{materialize, filter, filter_materialize, sum, min, max, knn1, matmul}, Aggregation::{compute, compute_multiple}", "ebi/src/decoder/expr.rs: Expr::compute_chunk", "ebi/src/decoder/query.rs", "ebi/src/decoder/chunk_reader/*.rs"]}
{"id": "C80", "title": "The single commands give in memory and from the file the same answer and lose nothing", "statement": "The commands filter, filter_materialize, materialize, max and sum of the experimenter report the same result with and without in_memory, for any file, damaged ones too. They change no file but their output; when a command that writes succeeds, its output has all selected values and the length it reports is theirs, also if the last buffer fails to be written. The list of records in a request is a set: order and repetition do not matter. materialize on the records reported by filter writes the same file as filter_materialize, and compress followed by materialize gives back the file of doubles up to the last whole record. The results are stored beside the directory of the file. The code departs from this when the input already has the extension of the output: the input is truncated before it is read.", "quantifier": "all files, requests, predicates, directories, names, schemes and failures of the output device", "why_tests_cant": "There are no tests of the commands; that the two branches agree for every file and request, and what is left after a failed write, needs all files and all failures.", "anchors": ["experimenter/src/main.rs: filter_command, filter_materialize_command, materialize_command, max_command, sum_command, process_file", "experimenter/src/lib.rs: FilterConfig, MaterializeConfig"]}
{"id": "C81", "title": "A query asked chunk by chunk gives the whole answer", "statement": "Every query takes an optional chunk id. For any file, damaged ones too, and every scheme, the answer without chunk id is the combination of the answers with chunk id 0, 1, ...: concatenation for materialize and filter_materialize, union for filter, greatest and least for max and min, the floating-point sum from the first to the last for sum, bit for bit; it fails as the first chunk that fails. In a file the encoder wrote, a chunk id restricts a query as a bitmask with the records of that chunk does. A chunk id the file does not have gives the answer over no record, without an error.", "quantifier": "all files, schemes, bitmasks, predicates and chunk ids", "why_tests_cant": "The tests never pass a chunk id; how the answers combine in the presence of skipped chunks, NaNs, signed zeros and failures depends on all files and masks.", "anchors": ["ebi/src/api/decoder.rs: Decoder::{materialize, filter, filter_materialize, sum, min, max} (chunk_id)", "experimenter/src/main.rs: filter_command, filter_materialize_command, materialize_command, max_command, sum_command"]}
{"id": "C82", "title": "Filters on the answer of filters select what matches all", "statement": "Feeding the bitmap a filter answers to the next filter as its bitmask, any number of times, selects exactly the records that match all predicates; order and repetition of the predicates do not change the bitmap. materialize, filter_materialize, max and min on it range over the values that match all predicates.", "quantifier": "all files, bitmasks and lists of predicates; schemes other than BUFF and DeltaSprintz", "why_tests_cant": "Chains are unbounded and their answer depends on all files; the tests have single filters.", "anchors": ["ebi/src/api/decoder.rs: Decoder::{filter, filter_materialize, materialize, min, max}", "ebi/src/decoder/query.rs: default_filter, default_materialize, default_filter_materialize", "experimenter/src/tpch.rs"]}
{"id": "C83", "title": "The default configurations are those of the data set", "statement": "create_default_compressor_config finds the decimals p of a CSV file and writes one configuration file per scheme, under the name of the scheme, with the default parameters; DeltaSprintz and BUFF get the scale 10^p exactly. Files of other names are not touched, in a new directory there are no others, and making them again for other data is as making them once. In the loop over all data sets exactly those whose filter configurations or precision cannot be made are skipped, every other gets the configurations for the decimals of its own CSV file, and the DeltaSprintz configuration made with exact precision up to 9 decimals stores the data without loss. It fails from 20 decimals on: nothing is written for DeltaSprintz and BUFF, and configurations of an earlier run stay and are used.", "quantifier": "all CSV texts, directories, data sets and float operations", "why_tests_cant": "No test covers these functions; what stays in a directory depends on all earlier runs and all texts.", "anchors": ["experimenter/src/main.rs: create_default_compressor_config, all_patch_command (create_config loop), csv_entries, config_entries", "experimenter/src/lib.rs: get_appropriate_precision, DEFAULT_CHUNK_OPTION"]}
