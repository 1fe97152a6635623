import Verif.Format
import Verif.SoftFloat

/-!
# Encoder

`ebi/src/encoder.rs` and `ebi/src/api/encoder.rs`: the file writer, the chunk loop and the final
patches, over an arbitrary compressor and an arbitrary way of delivering the input. Timers and clock
values are arguments.
-/

namespace Ebi

/-! ## Input -/

/-- What one call of `Read::read` on the user's input may do: deliver some bytes (at most the buffer
size), fail with `ErrorKind::Interrupted`, or fail with another error. `bytes []` is an `Ok(0)`. -/
inductive Event where
  | bytes (bs : List Byte)
  | interrupted
  | failed
deriving DecidableEq

/-- The future behaviour of the input reader; after the last event it answers `Ok(0)`. -/
abbrev Source := List Event

/-- Outcome of one `read`. -/
inductive SourceRead where
  | got (bs : List Byte)
  | interrupted
  | failed

/-- `Read::read` into a buffer of `n` bytes: at most `n` bytes of the next delivery, the rest stays. -/
def Source.read (n : Nat) : Source → SourceRead × Source
  | [] => (.got [], [])
  | .bytes bs :: rest =>
    if bs.length ≤ n then (.got bs, rest) else (.got (bs.take n), .bytes (bs.drop n) :: rest)
  | .interrupted :: rest => (.interrupted, rest)
  | .failed :: rest => (.failed, rest)

/-- The `while n_read < n_bytes` loop of `read_less_or_equal` (encoder.rs:278-294), `left` bytes still
wanted. One unit of fuel per `read`; every continuing iteration reads at least one byte, so `left` units
are enough. -/
def readLoop : Nat → Nat → List Byte → Source → Res (List Byte × Source)
  | 0, _, acc, src => .ok (acc, src)
  | fuel + 1, left, acc, src =>
    if left = 0 then .ok (acc, src)
    else
      match src.read left with
      | (.got [], src) => .ok (acc, src)
      | (.got bs, src) => readLoop fuel (left - bs.length) (acc ++ bs) src
      | (.interrupted, src) => if acc = [] then .err else .ok (acc, src)
      | (.failed, _) => .err

/-- Number of elements of the buffer of `read_less_or_equal` (encoder.rs:273), a `usize`. -/
def bufferLen (nBytes : Nat) : Nat := (nBytes + 7) % 2 ^ 64 / 8

/-- `read_less_or_equal` (encoder.rs:272-298): the records read; a trailing partial record is dropped
by `buf.truncate(n_read / 8)`. `vec![0.0; k]` panics (`capacity overflow`) if `8 * k` exceeds `isize::MAX`;
whether the allocator can serve a smaller request is not modelled. -/
def readLessOrEqual (src : Source) (nBytes : Nat) : Res (List B64 × Source) :=
  if 2 ^ 63 ≤ bufferLen nBytes * 8 then .panic
  else (readLoop nBytes nBytes [] src).map fun p => (toF64s p.1, p.2)

/-- `Read::read_to_end` (std): until `Ok(0)`, retrying after `Interrupted`. -/
def readToEnd : Source → Res (List Byte × Source)
  | [] => .ok ([], [])
  | .bytes [] :: rest => .ok ([], rest)
  | .bytes (b :: bs) :: rest => (readToEnd rest).map fun p => (b :: bs ++ p.1, p.2)
  | .interrupted :: rest => readToEnd rest
  | .failed :: _ => .err

/-! ## Compressors -/

/-- The `Compressor` trait (compressor.rs:32-66) as used by the encoder. `prepare` may panic.
`decode n` is the reader's `decompress` on a chunk handle of `n` records; `shortPanics` tells whether
the reader's constructor unwraps the I/O result of reading the chunk (`.unwrap()`) instead of
returning it. -/
structure Scheme where
  Comp : Type
  /-- `CompressorConfig::build` -/
  build : Comp
  reset : Comp → Comp
  compress : Comp → List B64 → Res Comp
  totalBytesIn : Comp → Nat
  prepare : Comp → Res Comp
  buffers : Comp → List Byte
  decode : Nat → List Byte → Res (List B64)
  shortPanics : Bool

/-! ## FileWriter -/

/-- `FileWriter` (encoder.rs:66-76) together with the bytes written to the output so far. -/
structure FileWriter where
  src : Source
  /-- includes the next chunk footer -/
  footers : List ChunkFooter
  totalBytesIn : Nat
  totalBytesOut : Nat
  reachesEof : Bool
  out : List Byte

/-- `FileWriter::new` (encoder.rs:80-97). -/
def FileWriter.new (src : Source) : FileWriter :=
  ⟨src, [⟨headerSize, 0⟩], 0, 0, false, []⟩

/-- `chunk_footers_with_next_chunk_footer().last().map_or(0, |f| f.logical_offset)`. -/
def FileWriter.nextLogical (w : FileWriter) : Nat :=
  match w.footers.getLast? with
  | some f => f.logical
  | none => 0

/-- `chunk_footers` (encoder.rs:132-134). -/
def FileWriter.chunkFooters (w : FileWriter) : List ChunkFooter := w.footers.dropLast

/-- The estimate of `ByteSizeBestEffort` (encoder.rs:347): `((n as f64 / 8.0) * 1.5).ceil() as usize`. -/
def estimateRecords (n : Nat) : Nat :=
  Soft.toUsize (Soft.ceil (Soft.mul (Soft.div (Soft.ofInt n) 0x4020000000000000#64) 0x3ff8000000000000#64))

/-- The bytes to read for one chunk, `none` for everything (encoder.rs:320-332, 344-352). `usize`
multiplication wraps (release build; a debug build panics). -/
def ChunkOption.bytesPerChunk : ChunkOption → Option Nat
  | .full => none
  | .recordCount c => some (c * 8 % 2 ^ 64)
  | .byteSize n => some (estimateRecords n * 8 % 2 ^ 64)

/-- The input part of `ChunkWriter::write` (encoder.rs:320-369). -/
def readChunk (opt : ChunkOption) (src : Source) : Res (List B64 × Source) :=
  match opt.bytesPerChunk with
  | some n => readLessOrEqual src n
  | none => (readToEnd src).map fun p => (toF64s p.1, p.2)

/-- `ChunkWriter::write` (encoder.rs:317-405). `GeneralChunkHeader` is empty. -/
def FileWriter.writeChunk (S : Scheme) (opt : ChunkOption) (c : S.Comp) (w : FileWriter) :
    Res (S.Comp × FileWriter) := do
  let (buf, src) ← readChunk opt w.src
  if buf = [] then .ok (c, { w with src := src, reachesEof := true })
  else
    let c ← S.compress c buf
    if S.totalBytesIn c = 0 then .ok (c, { w with src := src, reachesEof := true })
    else
      let c ← S.prepare c
      let bs := S.buffers c
      let totalOut := w.totalBytesOut + bs.length
      .ok (c, { w with
        src := src
        out := w.out ++ bs
        totalBytesIn := w.totalBytesIn + S.totalBytesIn c
        totalBytesOut := totalOut
        footers := w.footers ++ [⟨headerSize + totalOut, w.nextLogical + S.totalBytesIn c / 8⟩] })

/-- The `while let Some(..)` loop of `encode` (api/encoder.rs:150-160) with
`chunk_writer_with_compressor` (encoder.rs:146-156): the compressor of the previous chunk is reset and
reused. The fuel is an artefact; `encode_terminates` shows that it never runs out. -/
def encodeLoop (S : Scheme) (opt : ChunkOption) : Nat → Option S.Comp → FileWriter → Option (Res FileWriter)
  | 0, _, _ => none
  | fuel + 1, c, w =>
    if w.reachesEof then some (.ok w)
    else
      match w.writeChunk S opt (S.reset (c.getD S.build)) with
      | .ok (c, w) => encodeLoop S opt fuel (some c) w
      | .err => some .err
      | .panic => some .panic

/-- `Seek::seek(Start(pos))` followed by `write_all` on an in-memory file: overwrite in place, filling
any gap with zeros. -/
def overwrite (pos : Nat) (bs file : List Byte) : List Byte :=
  let file := file ++ List.replicate (pos - file.length) 0#8
  file.take pos ++ bs ++ file.drop (pos + bs.length)

/-- `write_header` (encoder.rs:166-189), with the crate version. -/
def headerBytes (cfg : Config) (opt : ChunkOption) (version : Nat × Nat × Nat) : List Byte :=
  Header.bytes ⟨magicNumber, cfg.scheme, opt, 0, version⟩

/-- `write_header` on the writer's output. -/
def FileWriter.writeHeader (w : FileWriter) (cfg : Config) (opt : ChunkOption)
    (version : Nat × Nat × Nat) : FileWriter :=
  { w with out := w.out ++ headerBytes cfg opt version }

/-- `footer_offset_slot_offset` (encoder.rs:124-126): `offset_of!(FileHeader, footer_offset)`. -/
def footerOffsetSlot : Nat := 4 + (1 + 1 + (1 + 1 + 8))

/-- `elapsed_time_slot_offset` (encoder.rs:248-257). -/
def FileWriter.elapsedSlot (w : FileWriter) (cfg : Config) : Nat :=
  headerSize + w.totalBytesOut +
    (footer0Size + w.chunkFooters.length * chunkFooterSize + cfg.serializedSize + 0)

/-- Everything `encode` writes after the chunk loop (api/encoder.rs:162-176): footer, footer offset,
elapsed time. -/
def FileWriter.finish (w : FileWriter) (cfg : Config) (times : Times) (elapsed : Duration) : List Byte :=
  let out := w.out ++ footerBytes w.nextLogical w.chunkFooters cfg times
  let out := overwrite footerOffsetSlot (leBytes 8 (headerSize + w.totalBytesOut)) out
  overwrite (w.elapsedSlot cfg) (leBytes 16 elapsed.asNanos) out

/-- Upper bound on the number of iterations. -/
def Source.weight : Source → Nat
  | [] => 0
  | .bytes bs :: rest => bs.length + 1 + weight rest
  | _ :: rest => 1 + weight rest

/-- `Encoder::encode` (api/encoder.rs:140-178) into an empty output: the resulting file. `times` is the
accumulated timer, `elapsed` the clock reading. -/
def encode (S : Scheme) (cfg : Config) (opt : ChunkOption) (version : Nat × Nat × Nat) (times : Times)
    (elapsed : Duration) (src : Source) : Option (Res (List Byte)) :=
  let w := (FileWriter.new src).writeHeader cfg opt version
  (encodeLoop S opt (src.weight + 2) none w).map fun r => r.map fun w => w.finish cfg times elapsed

end Ebi
