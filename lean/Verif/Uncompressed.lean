import Verif.Bytes

/-!
# Uncompressed scheme

`ebi/src/compressor/uncompressed.rs` and `ebi/src/decoder/chunk_reader/uncompressed.rs`.
-/

namespace Ebi.Uncompressed

open Ebi

/-- `UncompressedCompressor` (compressor/uncompressed.rs:14-18). -/
structure Comp where
  totalBytesIn : Nat
  buffer : List B64
deriving DecidableEq

/-- `UncompressedCompressor::new` (20-27); capacity is invisible. -/
def Comp.new : Comp := ⟨0, []⟩

/-- `reset` (62-65). -/
def Comp.reset (_ : Comp) : Comp := ⟨0, []⟩

/-- `append_compress` (72-80). -/
def Comp.append (c : Comp) (input : List B64) : Comp :=
  ⟨c.totalBytesIn + 8 * input.length, c.buffer ++ input⟩

/-- `compress` (30-40). -/
def Comp.compress (c : Comp) (input : List B64) : Comp :=
  { c.reset with buffer := c.reset.buffer ++ input,
                 totalBytesIn := c.reset.totalBytesIn + 8 * input.length }

/-- `total_bytes_buffered` (46-48). -/
def Comp.totalBytesBuffered (c : Comp) : Nat := 8 * c.buffer.length

/-- `prepare` (50). -/
def Comp.prepare (c : Comp) : Comp := c

/-- `buffers` (52-61), concatenated: the memory of the `Vec<f64>`. -/
def Comp.buffers (c : Comp) : List Byte := ofF64s c.buffer

/-- `rewind` (83-91). Note that `total_bytes_in` is left alone. -/
def Comp.rewind (c : Comp) (n : Nat) : Bool × Comp :=
  if c.buffer.length < n then (false, c)
  else (true, { c with buffer := c.buffer.take (c.buffer.length - n) })

/-- `UncompressedReaderImpl` (decoder/chunk_reader/uncompressed.rs:17-22): `rest` is what the cursor
over the chunk has left. -/
structure Reader where
  numberOfRecords : Nat
  values : Option (List B64)
  rest : List Byte

/-- `UncompressedReader::new` (24-46), given the chunk bytes. -/
def Reader.new (numberOfRecords : Nat) (chunk : List Byte) : Reader := ⟨numberOfRecords, none, chunk⟩

/-- `decompress` (56-71). -/
def Reader.decompress (r : Reader) : Res (List B64 × Reader) :=
  match r.values with
  | some vs => .ok (vs, r)
  | none =>
    match takeExact (8 * r.numberOfRecords) r.rest with
    | none => .err
    | some (bs, rest) => .ok (toF64s bs, { r with values := some (toF64s bs), rest := rest })

/-- The iterator `next` (107-124) drained by a consumer that stops at the first error: `n` values are
still to come. -/
def iterFrom : Nat → List Byte → Res (List B64)
  | 0, _ => .ok []
  | n + 1, bs =>
    match takeExact 8 bs with
    | none => .err
    | some (b, rest) => (iterFrom n rest).map (f64Of b :: ·)

/-- `decompress_iter` (81-83), drained. -/
def Reader.iter (r : Reader) : Res (List B64) := iterFrom r.numberOfRecords r.rest

theorem iterFrom_ofF64s (vs : List B64) (t : List Byte) :
    iterFrom vs.length (ofF64s vs ++ t) = .ok vs := by
  induction vs with
  | nil => rfl
  | cons v vs ih =>
    simp [iterFrom, takeExact_append' _ _ (f64Bytes_length v), ih, Res.map]

theorem decompress_new (vs : List B64) :
    (Reader.new vs.length (ofF64s vs)).decompress
      = .ok (vs, ⟨vs.length, some vs, []⟩) := by
  have h := takeExact_append' (n := 8 * vs.length) (ofF64s vs) [] (ofF64s_length vs)
  rw [List.append_nil] at h
  simp [Reader.decompress, Reader.new, h]

end Ebi.Uncompressed
