import Verif.Bytes

/-!
# Schemes that wrap an external library

`ebi/src/compressor/{zstd,gzip,snappy,ffi_alp}.rs` and the readers of the same names under
`ebi/src/decoder/chunk_reader/`. The libraries themselves (zstd, flate2, snap, ALP) are parameters.
-/

namespace Ebi.External

open Ebi

/-- An external compression library: `enc` may fail with an I/O error, `dec` on corrupt input. -/
structure ByteCodec where
  enc : List Byte → Option (List Byte)
  dec : List Byte → Option (List Byte)

/-- What is assumed of a library: it is lossless. -/
def ByteCodec.Lossless (k : ByteCodec) : Prop := ∀ bs, ∃ out, k.enc bs = some out ∧ k.dec out = some bs

/-- `ZstdCompressor` (compressor/zstd.rs:12-17), `GzipCompressor` (gzip.rs:14-19),
`SnappyCompressor` (snappy.rs:14-18). -/
structure Comp where
  totalBytesIn : Nat
  compressed : Option (List Byte)
deriving DecidableEq

/-- `From<..Config>` (zstd.rs:39-47, gzip.rs:43-51, snappy.rs:35-42). -/
def Comp.new : Comp := ⟨0, none⟩

/-- `reset` (zstd.rs:79-82, gzip.rs:89-92, snappy.rs:78-81). -/
def Comp.reset (_ : Comp) : Comp := ⟨0, none⟩

/-- `ZstdCompressor::compress` (zstd.rs:50-59): no reset, the input count accumulates (also when the
library fails). -/
def Comp.compressZstd (k : ByteCodec) (c : Comp) (input : List B64) : Res Comp :=
  match k.enc (ofF64s input) with
  | none => .err
  | some out => .ok ⟨c.totalBytesIn + 8 * input.length, some out⟩

/-- `GzipCompressor::compress` (gzip.rs:54-69), `SnappyCompressor::compress` (snappy.rs:45-58). -/
def Comp.compressReset (k : ByteCodec) (c : Comp) (input : List B64) : Res Comp :=
  c.reset.compressZstd k input

/-- `buffers` (zstd.rs:71-76, gzip.rs:81-86, snappy.rs:70-75). -/
def Comp.buffers (c : Comp) : List Byte := c.compressed.getD []

/-- `total_bytes_buffered` (zstd.rs:65-67, gzip.rs:75-77, snappy.rs:64-66). -/
def Comp.totalBytesBuffered (c : Comp) : Nat :=
  match c.compressed with
  | some bs => bs.length
  | none => 0

/-- `ZstdReader::decompress` (chunk_reader/zstd.rs:40-62): `copy_decode` into a zeroed slice of
`8 * n` bytes; too much output is a write error, too little leaves zeros. -/
def decodeZstd (k : ByteCodec) (n : Nat) (bs : List Byte) : Res (List B64) :=
  match k.dec bs with
  | none => .err
  | some out =>
    if 8 * n < out.length then .err
    else .ok (toF64s (out ++ List.replicate (8 * n - out.length) 0#8))

/-- `GzipReader::decompress` (chunk_reader/gzip.rs:42-70), `SnappyReader::decompress`
(snappy.rs:42-70): `read_exact`; left-over output is ignored in release builds. -/
def decodeExact (k : ByteCodec) (n : Nat) (bs : List Byte) : Res (List B64) :=
  match k.dec bs with
  | none => .err
  | some out => if out.length < 8 * n then .err else .ok (toF64s (out.take (8 * n)))

/-- The ALP library (`alp_binding::{compress_double, decompress_double}`). -/
structure ValueCodec where
  enc : List B64 → List Byte
  dec : Nat → List Byte → List B64

def ValueCodec.Lossless (k : ValueCodec) : Prop := ∀ vs, k.dec vs.length (k.enc vs) = vs

/-- `FFIAlpCompressor` (compressor/ffi_alp.rs). `is_compressed` is never read. -/
structure AlpComp where
  totalBytesIn : Nat
  compressed : List Byte
deriving DecidableEq

def AlpComp.new : AlpComp := ⟨0, []⟩

/-- `reset` (ffi_alp.rs:76-80). -/
def AlpComp.reset (_ : AlpComp) : AlpComp := ⟨0, []⟩

/-- `compress` (ffi_alp.rs:47-56); the library is taken to append to the cleared vector. -/
def AlpComp.compress (k : ValueCodec) (c : AlpComp) (input : List B64) : AlpComp :=
  ⟨c.reset.totalBytesIn + 8 * input.length, c.reset.compressed ++ k.enc input⟩

/-- `FFIAlpReader::decompress` (chunk_reader/ffi_alp.rs:45-71). -/
def decodeAlp (k : ValueCodec) (n : Nat) (bs : List Byte) : Res (List B64) := .ok (k.dec n bs)

theorem decodeZstd_enc {k : ByteCodec} (hk : k.Lossless) (c : Comp) (vs : List B64) :
    ∃ c', c.compressZstd k vs = .ok c' ∧ c'.totalBytesIn = c.totalBytesIn + 8 * vs.length ∧
      decodeZstd k vs.length c'.buffers = .ok vs ∧ decodeExact k vs.length c'.buffers = .ok vs ∧
      c'.totalBytesBuffered = c'.buffers.length := by
  obtain ⟨out, h1, h2⟩ := hk (ofF64s vs)
  refine ⟨⟨c.totalBytesIn + 8 * vs.length, some out⟩, by simp [Comp.compressZstd, h1], rfl, ?_, ?_, rfl⟩
  · simp [decodeZstd, Comp.buffers, h2]
  · simp only [decodeExact, Comp.buffers, Option.getD_some, h2, ofF64s_length]
    rw [if_neg (by omega), List.take_of_length_le (by simp), toF64s_ofF64s]

end Ebi.External
