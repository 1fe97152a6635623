import Verif.Encoder
import Verif.Query

/-!
# Decoder

`ebi/src/decoder.rs` and `ebi/src/api/decoder.rs`: opening a file, chunk handles, and the queries over
all chunks. The file is the byte string behind the `Read + Seek` input.
-/

namespace Ebi

/-- `Metadata` (decoder.rs:43-47). -/
structure Metadata where
  header : Header
  footer : Footer
deriving DecidableEq

/-- `Decoder::new` (api/decoder.rs:136-156): `fetch_header` (decoder.rs:131-144), `seek_to_footer`
(157-164), `fetch_footer`. Seeking beyond the end leaves nothing to read. -/
def openFile (file : List Byte) : Res Metadata := do
  let (hb, _) ← readExact headerSize file
  let header ← Header.parse hb
  let footer ← fetchFooter header.scheme (file.drop header.footerOffset)
  .ok ⟨header, footer⟩

namespace Metadata

variable (m : Metadata)

/-- `footer_size` (api/decoder.rs:168-170). -/
def footerSize : Nat := m.footer.size

/-- `total_file_size` (172-174). -/
def totalFileSize : Nat := m.header.footerOffset + m.footerSize

/-- `total_chunk_size` (176-185); the subtraction is on `u64`. -/
def totalChunkSize : Nat :=
  let head := match m.footer.chunkFooters.head? with
    | some f => f.physical
    | none => m.header.footerOffset
  (m.header.footerOffset + 2 ^ 64 - head) % 2 ^ 64

/-- `chunk_footer` (decoder.rs:281-283): indexing. -/
def chunkFooter (i : Nat) : Res ChunkFooter :=
  match m.footer.chunkFooters[i]? with
  | some f => .ok f
  | none => .panic

/-- `next_physical_offset` (decoder.rs:308-314). -/
def nextPhysical (i : Nat) : Nat :=
  match m.footer.chunkFooters[i + 1]? with
  | some f => f.physical
  | none => m.header.footerOffset

/-- `next_logical_offset` (decoder.rs:316-322). -/
def nextLogical (i : Nat) : Nat :=
  match m.footer.chunkFooters[i + 1]? with
  | some f => f.logical
  | none => m.footer.records

/-- `chunk_size` (decoder.rs:289-298). The `u64` subtraction wraps in release builds. -/
def chunkSize (i : Nat) : Res Nat := do
  let f ← m.chunkFooter i
  .ok ((m.nextPhysical i + 2 ^ 64 - f.physical) % 2 ^ 64)

/-- `number_of_records` (decoder.rs:324-334), wrapping likewise. -/
def numberOfRecords (i : Nat) : Res Nat := do
  let f ← m.chunkFooter i
  .ok ((m.nextLogical i + 2 ^ 64 - f.logical) % 2 ^ 64)

/-- `logical_record_range_u32` (decoder.rs:348-358). -/
def recordRangeU32 (i : Nat) : Res (Nat × Nat) := do
  let f ← m.chunkFooter i
  .ok (f.logical % 2 ^ 32, m.nextLogical i % 2 ^ 32)

end Metadata

/-- `chunk_reader_from_handle` (api/decoder.rs:739-752) up to the point where the chunk is in memory:
`seek_to_chunk`, then the reader's constructor allocates `chunk_size` bytes (panic above `isize::MAX`)
and reads them. Returns the record count, the bytes, and the logical offset.
The Zstd/Gzip/Snappy readers read the bytes when they decompress, with the same effect. -/
def loadChunk (S : Scheme) (file : List Byte) (m : Metadata) (i : Nat) :
    Res (Nat × List Byte × Nat) := do
  let f ← m.chunkFooter i
  let n ← m.numberOfRecords i
  let size ← m.chunkSize i
  if 2 ^ 63 ≤ size then .panic
  else
    match takeExact size (file.drop f.physical) with
    | some (bs, _) => .ok (n, bs, f.logical)
    | none => if S.shortPanics then .panic else .err

/-- The `QueryExecutor` methods of a fresh chunk reader: from the record count, the chunk bytes, the
bitmask and the logical offset. -/
structure ChunkOps where
  materialize : Nat → List Byte → Option Bitmap → Nat → Res (List B64)
  filter : Nat → List Byte → Predicate B64 → Option Bitmap → Nat → Res Bitmap
  filterMaterialize : Nat → List Byte → Predicate B64 → Option Bitmap → Nat → Res (List B64)
  sum : Nat → List Byte → Option Bitmap → Nat → Res B64
  min : Nat → List Byte → Option Bitmap → Nat → Res B64
  max : Nat → List Byte → Option Bitmap → Nat → Res B64

/-- The trait defaults (query.rs:194-311): decompress, then the `default_*` functions. -/
def defaultOps (o : FloatOps) (decode : Nat → List Byte → Res (List B64)) : ChunkOps where
  materialize n bs bm off := (decode n bs).map fun vs => defaultMaterialize bm off vs
  filter n bs p bm off := (decode n bs).map fun vs => defaultFilter p bm [] off vs
  filterMaterialize n bs p bm off := (decode n bs).map fun vs => defaultFilterMaterialize p bm off vs
  sum n bs bm off := (decode n bs).map fun vs => defaultSum o bm off vs
  min n bs bm off := (decode n bs).map fun vs => defaultMin o bm off vs
  max n bs bm off := (decode n bs).map fun vs => defaultMax o bm off vs

/-- `chunk_range_bitmap.insert_range(range)` and `(bm & chunk_range_bitmap).is_empty()`
(api/decoder.rs:218-222 and the same lines of the other queries). -/
def rangeDisjoint (bm : Option Bitmap) (range : Nat × Nat) : Bool :=
  match bm with
  | none => false
  | some b => !b.any fun x => decide (range.1 ≤ x ∧ x < range.2)

/-- The loop shared by all queries (api/decoder.rs:210-236 etc.): chunks in order, those not asked for
or without selected record are skipped. -/
def chunkLoop {A : Type} (m : Metadata) (bm : Option Bitmap) (cid : Option Nat) (body : Nat → A → Res A) :
    List Nat → A → Res A
  | [], a => .ok a
  | i :: is, a =>
    if cid.all (· == i) then do
      let range ← m.recordRangeU32 i
      if rangeDisjoint bm range then chunkLoop m bm cid body is a
      else do
        let a ← body i a
        chunkLoop m bm cid body is a
    else chunkLoop m bm cid body is a

namespace Query

variable (S : Scheme) (ops : ChunkOps) (o : FloatOps) (file : List Byte) (m : Metadata)
  (bm : Option Bitmap) (cid : Option Nat)

/-- One handle per announced chunk (decoder.rs:66-75). -/
def handles : List Nat := List.range m.footer.chunks

/-- `Decoder::materialize` (api/decoder.rs:202-237): the doubles written to the output. -/
def materialize : Res (List B64) :=
  chunkLoop m bm cid (fun i out => do
    let (n, bs, off) ← loadChunk S file m i
    let vs ← ops.materialize n bs bm off
    .ok (out ++ vs)) (handles m) []

/-- `Decoder::filter` (242-281). -/
def filter (p : Predicate B64) : Res Bitmap :=
  chunkLoop m bm cid (fun i result => do
    let (n, bs, off) ← loadChunk S file m i
    let filtered ← ops.filter n bs p bm off
    .ok (Bitmap.union result filtered)) (handles m) []

/-- `Decoder::filter_materialize` (283-319). -/
def filterMaterialize (p : Predicate B64) : Res (List B64) :=
  chunkLoop m bm cid (fun i out => do
    let (n, bs, off) ← loadChunk S file m i
    let vs ← ops.filterMaterialize n bs p bm off
    .ok (out ++ vs)) (handles m) []

/-- `Decoder::sum` (323-359). -/
def sum : Res B64 :=
  chunkLoop m bm cid (fun i result => do
    let (n, bs, off) ← loadChunk S file m i
    let v ← ops.sum n bs bm off
    .ok (o.add result v)) (handles m) 0#64

/-- `Decoder::min` (363-399). -/
def min : Res B64 :=
  chunkLoop m bm cid (fun i result => do
    let (n, bs, off) ← loadChunk S file m i
    let v ← ops.min n bs bm off
    .ok (o.fmin result v)) (handles m) posInf

/-- `Decoder::max` (403-439). -/
def max : Res B64 :=
  chunkLoop m bm cid (fun i result => do
    let (n, bs, off) ← loadChunk S file m i
    let v ← ops.max n bs bm off
    .ok (o.fmax result v)) (handles m) negInf

end Query

/-- `materialize`'s output stream (query.rs:29: `write_all(&v.to_ne_bytes())`). -/
def outputBytes (vs : List B64) : List Byte := ofF64s vs

end Ebi
