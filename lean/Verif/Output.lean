import Verif.Encoder

/-!
# Encoder output

`Encoder::encode` (`ebi/src/api/encoder.rs`) over an output device that may take only part of what it is
given, be interrupted, or fail at any call, and that may already hold something; used directly or behind a
`BufWriter` (`EncoderOutput::into_buffered`). The chunk contents and the file writer's bookkeeping are those
of `Encoder`.
-/

namespace Ebi

/-- What one call to the device does. For `write`: take at most `n` bytes (`Ok(0)` if `n = 0`), fail with
`ErrorKind::Interrupted`, or fail otherwise. `flush` and `seek` succeed on `accept`. -/
inductive WriteEvent where
  | accept (n : Nat)
  | interrupted
  | failed
deriving DecidableEq

/-- A `Write + Seek` device: contents, position, future behaviour (after the last event every call
succeeds in full). -/
structure Output where
  file : List Byte
  pos : Nat
  events : List WriteEvent

/-- `Write::write_all` (std): until everything is taken, `Ok(0)` is the error `WriteZero`, `Interrupted`
is retried. `BufWriter::flush_buf` is the same loop over the buffer. Arguments: future, bytes left, contents,
position. Also returns the bytes not written. -/
def writeLoop : List WriteEvent → List Byte → List Byte → Nat → Res Unit × List Byte × Output
  | ev, [], f, p => (.ok (), [], ⟨f, p, ev⟩)
  | [], b :: bs, f, p => (.ok (), [], ⟨overwrite p (b :: bs) f, p + (b :: bs).length, []⟩)
  | .accept 0 :: ev, b :: bs, f, p => (.err, b :: bs, ⟨f, p, ev⟩)
  | .accept (n + 1) :: ev, b :: bs, f, p =>
    let now := (b :: bs).take (n + 1)
    writeLoop ev ((b :: bs).drop (n + 1)) (overwrite p now f) (p + now.length)
  | .interrupted :: ev, b :: bs, f, p => writeLoop ev (b :: bs) f p
  | .failed :: ev, b :: bs, f, p => (.err, b :: bs, ⟨f, p, ev⟩)

/-- `?` between two steps on a writer. -/
def andThen {K A B : Type} (r : Res A × K) (f : K → Res B × K) : Res B × K :=
  match r with
  | (.ok _, k) => f k
  | (.err, k) => (.err, k)
  | (.panic, k) => (.panic, k)

namespace Output

/-- `write_all` on the device. -/
def writeAll (bs : List Byte) (k : Output) : Res Unit × Output :=
  let r := writeLoop k.events bs k.file k.pos
  (r.1, r.2.2)

/-- Outcome of a call that is not retried: an interruption is an error like any other (`?`). -/
def call (k : Output) : Res Unit × Output :=
  match k.events with
  | [] => (.ok (), k)
  | .accept _ :: ev => (.ok (), { k with events := ev })
  | _ :: ev => (.err, { k with events := ev })

/-- `flush`. -/
def flush (k : Output) : Res Unit × Output := k.call

/-- `seek(SeekFrom::Start(p))`. -/
def seek (p : Nat) (k : Output) : Res Unit × Output :=
  match k.call with
  | (.ok _, k) => (.ok (), { k with pos := p })
  | r => r

end Output

/-- `BufWriter` (std) around the device. -/
structure Buffered where
  inner : Output
  buf : List Byte
  capacity : Nat

namespace Buffered

/-- A new one (8 KiB by default; here any capacity). -/
def new (capacity : Nat) (k : Output) : Buffered := ⟨k, [], capacity⟩

/-- `flush_buf`: what could not be written stays in the buffer. -/
def flushBuf (b : Buffered) : Res Unit × Buffered :=
  let r := writeLoop b.inner.events b.buf b.inner.file b.inner.pos
  (r.1, { b with inner := r.2.2, buf := r.2.1 })

/-- A call on the device itself. -/
def onInner (f : Output → Res Unit × Output) (b : Buffered) : Res Unit × Buffered :=
  let r := f b.inner
  (r.1, { b with inner := r.2 })

/-- `spare_capacity`. -/
def spare (b : Buffered) : Nat := b.capacity - b.buf.length

/-- `write_all`, `write_all_cold`: into the buffer if there is room, after flushing it otherwise; pieces as
large as the buffer go to the device directly. -/
def writeAll (bs : List Byte) (b : Buffered) : Res Unit × Buffered :=
  if bs.length < b.spare then (.ok (), { b with buf := b.buf ++ bs })
  else
    andThen (if b.spare < bs.length then b.flushBuf else (.ok (), b)) fun b =>
      if b.capacity ≤ bs.length then b.onInner (Output.writeAll bs) else (.ok (), { b with buf := b.buf ++ bs })

/-- `flush`. -/
def flush (b : Buffered) : Res Unit × Buffered := andThen b.flushBuf (onInner Output.flush)

/-- `seek`. -/
def seek (p : Nat) (b : Buffered) : Res Unit × Buffered := andThen b.flushBuf (onInner (Output.seek p))

/-- `drop`: flushes the buffer and ignores the result. -/
def drop (b : Buffered) : Buffered := b.flushBuf.2

end Buffered

/-- A `Write + Seek` as the encoder uses it: its calls, what dropping it does, and what is then on the
device. -/
structure Device (K : Type) where
  writeAll : List Byte → K → Res Unit × K
  flush : K → Res Unit × K
  seek : Nat → K → Res Unit × K
  drop : K → K
  disk : K → List Byte

/-- The device itself. -/
def Output.device : Device Output := ⟨Output.writeAll, Output.flush, Output.seek, id, Output.file⟩

/-- The device behind a buffer. -/
def Buffered.device : Device Buffered :=
  ⟨Buffered.writeAll, Buffered.flush, Buffered.seek, Buffered.drop, fun b => b.inner.file⟩

section
variable {K : Type} (D : Device K)

/-- The chunk loop of `encode` (api/encoder.rs:150-160): the bytes of a chunk are the compressor's buffers
(encoder.rs:378-382, here one `write_all` for all of them), and every round ends with a flush. -/
def encodeLoopTo (S : Scheme) (opt : ChunkOption) : Nat → Option S.Comp → FileWriter → K →
    Option (Res FileWriter × K)
  | 0, _, _, _ => none
  | fuel + 1, c, w, k =>
    if w.reachesEof then some (.ok w, k)
    else
      match w.writeChunk S opt (S.reset (c.getD S.build)) with
      | .ok (c, w) =>
        match andThen (if w.reachesEof then (.ok (), k) else D.writeAll (S.buffers c) k) D.flush with
        | (.ok _, k) => encodeLoopTo S opt fuel (some c) w k
        | (.err, k) => some (.err, k)
        | (.panic, k) => some (.panic, k)
      | .err => some (.err, k)
      | .panic => some (.panic, k)

/-- A series of `write_all(..)?`. -/
def Device.writeParts : List (List Byte) → K → Res Unit × K
  | [], k => (.ok (), k)
  | bs :: rest, k => andThen (D.writeAll bs k) (Device.writeParts rest)

/-- `write_footer` (encoder.rs:191-235) piece by piece. `serialize` of the configuration is one `write_all`. -/
def FileWriter.writeFooterTo (w : FileWriter) (cfg : Config) (times : Times) (k : K) : Res Unit × K :=
  D.writeParts [leBytes 8 w.nextLogical ++ leBytes 8 w.chunkFooters.length, w.chunkFooters.flatMap ChunkFooter.bytes,
    cfg.serialize, leBytes 16 0 ++ (times.bytes ++ leBytes 4 0)] k

/-- Everything after the chunk loop (api/encoder.rs:162-176). -/
def FileWriter.finishTo (w : FileWriter) (cfg : Config) (times : Times) (elapsed : Duration) (k : K) :
    Res Unit × K :=
  andThen (w.writeFooterTo D cfg times k) fun k =>
  andThen (D.seek footerOffsetSlot k) fun k =>
  andThen (D.writeAll (leBytes 8 (headerSize + w.totalBytesOut)) k) fun k =>
  andThen (D.seek (w.elapsedSlot cfg) k) fun k =>
  andThen (D.writeAll (leBytes 16 elapsed.asNanos) k) D.flush

/-- `Encoder::encode` (api/encoder.rs:140-178) on a device: the outcome and the state of the device. -/
def encodeTo (S : Scheme) (cfg : Config) (opt : ChunkOption) (version : Nat × Nat × Nat) (times : Times)
    (elapsed : Duration) (src : Source) (k : K) : Option (Res Unit × K) :=
  let w := (FileWriter.new src).writeHeader cfg opt version
  match D.writeAll (headerBytes cfg opt version) k with
  | (.ok _, k) =>
    match encodeLoopTo D S opt (src.weight + 2) none w k with
    | some (.ok w, k) => some (w.finishTo D cfg times elapsed k)
    | some (.err, k) => some (.err, k)
    | some (.panic, k) => some (.panic, k)
    | none => none
  | (.err, k) => some (.err, k)
  | (.panic, k) => some (.panic, k)

end

end Ebi
