import Verif.Schemes
import Verif.BuffQuery
import Verif.ElfWrap

/-!
# Chunk readers with their state

`ebi/src/decoder/chunk_reader.rs` (the enum dispatch), the readers below
`ebi/src/decoder/chunk_reader/`, and the trait defaults of `ebi/src/decoder/query.rs`.

A failing operation gives no new state here; `Failed.lean` keeps it.
-/

namespace Ebi

/-! ## Queries -/

/-- The methods of `QueryExecutor` (query.rs:197-311) with their arguments, except the logical
offset, which belongs to the chunk. -/
inductive ChunkQuery where
  | materialize (bm : Option Bitmap)
  | filter (p : Predicate B64) (bm : Option Bitmap)
  | filterMaterialize (p : Predicate B64) (bm : Option Bitmap)
  | sum (bm : Option Bitmap)
  | min (bm : Option Bitmap)
  | max (bm : Option Bitmap)
  | distanceSquared (offsetInChunk : Nat) (target : List B64)
  | dotProduct (offsetInChunk : Nat) (target : List B64)

/-- What a query returns or writes. -/
inductive Answer where
  | values (vs : List B64)
  | bitmap (b : Bitmap)
  | number (v : B64)
deriving DecidableEq

/-- The `default_*` functions (query.rs:15-192) on decompressed values. -/
def defaultAnswer (o : FloatOps) (off : Nat) (vs : List B64) : ChunkQuery → Answer
  | .materialize bm => .values (defaultMaterialize bm off vs)
  | .filter p bm => .bitmap (defaultFilter p bm [] off vs)
  | .filterMaterialize p bm => .values (defaultFilterMaterialize p bm off vs)
  | .sum bm => .number (defaultSum o bm off vs)
  | .min bm => .number (defaultMin o bm off vs)
  | .max bm => .number (defaultMax o bm off vs)
  | .distanceSquared i t => .number (defaultDistanceSquared o i t vs)
  | .dotProduct i t => .number (defaultDotProduct o i t vs)

/-- The trait defaults: `reader.decompress(timer)?`, then the computation. -/
def defaultExec {R : Type} (o : FloatOps) (decompress : R → Res (List B64 × R)) (r : R) (off : Nat)
    (q : ChunkQuery) : Res (Answer × R) :=
  (decompress r).map fun p => (defaultAnswer o off p.1 q, p.2)

/-! ## XOR readers -/

namespace XorCodec

variable (C : XorCodec)

/-- `GeneralXorReader` (general_xor.rs:25-30) without the record count, which is only a size hint. -/
structure Reader where
  bits : BitReader
  decompressed : Option (List B64)

/-- `GeneralXorReader::new` (32-53), given the chunk bytes. -/
def Reader.new (chunk : List Byte) : Reader := ⟨BitReader.new chunk, none⟩

/-- Draining the iterator, which borrows the bit reader (124-133): also the bit reader afterwards. -/
def collectR : Nat → C.D → BitReader → Res (List B64 × BitReader)
  | 0, _, _ => .panic
  | f + 1, d, r =>
    match C.next d r with
    | .value v d r => (collectR f d r).map fun p => (v :: p.1, p.2)
    | .done _ r => .ok ([], r)
    | .err => .err
    | .panic => .panic

/-- `decompress` (75-81) with `default_decompress` (chunk_reader.rs:353-364): a fresh decoder on the
bit reader where it stands; the result is kept. -/
def Reader.decompress (r : Reader) : Res (List B64 × Reader) :=
  match r.decompressed with
  | some vs => .ok (vs, r)
  | none => (C.collectR (8 * r.bits.buf.length + 1) C.dinit r.bits).map fun p =>
      (p.1, ⟨p.2, some p.1⟩)

theorem collectR_fst (f : Nat) (d : C.D) (r : BitReader) :
    (C.collectR f d r).map Prod.fst = (C.collect f d r).toRes := by
  induction f generalizing d r with
  | zero => rfl
  | succ f ih =>
    rw [collectR, collect]
    cases C.next d r with
    | value v d r =>
      have h := ih d r
      simp only
      cases h1 : C.collectR f d r <;> cases h2 : C.collect f d r <;> rw [h1, h2] at h <;>
        simp_all [Res.map, Collect.toRes]
    | done d r => rfl
    | err => rfl
    | panic => rfl

end XorCodec

/-! ## Readers on an external library -/

/-- `ZstdReader` (zstd.rs:11-16), `GzipReader` (gzip.rs:13-18), `SnappyReader` (snappy.rs:13-18),
`FFIAlpReader` (ffi_alp.rs). `pending` is the chunk, still in the file. -/
structure External.Reader where
  numberOfRecords : Nat
  pending : List Byte
  decompressed : Option (List B64)

def External.Reader.new (n : Nat) (chunk : List Byte) : External.Reader := ⟨n, chunk, none⟩

/-- `decompress` (zstd.rs:40-62 etc.); the chunk has been read from the file afterwards. -/
def External.Reader.decompress (decode : Nat → List Byte → Res (List B64)) (r : External.Reader) :
    Res (List B64 × External.Reader) :=
  match r.decompressed with
  | some vs => .ok (vs, r)
  | none => (decode r.numberOfRecords r.pending).map fun vs => (vs, { r with pending := [], decompressed := some vs })

/-! ## DeltaSprintz and BUFF -/

/-- `QueryExecutor for DeltaSprintzReader` (sprintz.rs:90-265); the rest are trait defaults. -/
def Sprintz.Reader.exec (o : FloatOps) (r : Sprintz.Reader) (off : Nat) : ChunkQuery → Res (Answer × Sprintz.Reader)
  | .materialize bm => (r.materialize o bm off).map fun p => (.values p.1, p.2)
  | .filter p bm => (r.filter o p bm off).map fun p => (.bitmap p.1, p.2)
  | .sum bm => (r.sum o bm off).map fun p => (.number p.1, p.2)
  | .min bm => (r.min o bm off).map fun p => (.number p.1, p.2)
  | .max bm => (r.max o bm off).map fun p => (.number p.1, p.2)
  | q => defaultExec o (Sprintz.Reader.decompress o) r off q

/-- `QueryExecutor for BUFFReader` (buff.rs:127-325); the rest are trait defaults. -/
def Buff.Reader.exec (o : FloatOps) (useSimd : Nat → Nat → Bool) (r : Buff.Reader) (off : Nat) :
    ChunkQuery → Res (Answer × Buff.Reader)
  | .filter p bm => (r.filter useSimd p bm off).map fun b => (.bitmap b, r)
  | .filterMaterialize p bm => (r.filterMaterialize o useSimd p bm off).map fun p => (.values p.1, p.2)
  | .sum bm => (r.sum o bm off).map fun v => (.number v, r)
  | .min bm => (r.min o bm off).map fun v => (.number v, r)
  | .max bm => (r.max o bm off).map fun v => (.number v, r)
  | q => defaultExec o (Buff.Reader.decompress o) r off q

/-! ## The enum -/

/-- What the model leaves open: the arithmetic, `log10`, which SIMD path is taken, the libraries. -/
structure Env where
  o : FloatOps
  /-- `f64::log10` (Elf) -/
  log10 : B64 → B64
  /-- `(scale as f32).log10() as usize` (BUFF) -/
  log10Scale : Nat → Nat
  useSimd : Nat → Nat → Bool
  zstd : External.ByteCodec
  gzip : External.ByteCodec
  snappy : External.ByteCodec
  alp : External.ValueCodec

/-- `GeneralChunkReaderInner` (chunk_reader.rs:285-301). -/
inductive AnyReader where
  | uncompressed (r : Uncompressed.Reader)
  | rle (r : RunLength.Reader)
  | gorilla (r : XorCodec.Reader)
  | buff (r : Buff.Reader)
  | chimp (r : XorCodec.Reader)
  | chimp128 (r : XorCodec.Reader)
  | elfOnChimp (r : XorCodec.Reader)
  | elf (r : XorCodec.Reader)
  | deltaSprintz (r : Sprintz.Reader)
  | zstd (r : External.Reader)
  | gzip (r : External.Reader)
  | snappy (r : External.Reader)
  | ffiAlp (r : External.Reader)

namespace AnyReader

variable (E : Env)

/-- `GeneralChunkReaderInner::new` (303-351): the variant is chosen by the scheme in the file header. -/
def new (id : SchemeId) (n : Nat) (chunk : List Byte) : Res AnyReader :=
  match id with
  | .uncompressed => .ok (.uncompressed (Uncompressed.Reader.new n chunk))
  | .rle => (RunLength.Reader.new n chunk).map .rle
  | .gorilla => .ok (.gorilla (XorCodec.Reader.new chunk))
  | .buff => .ok (.buff (Buff.Reader.new n chunk))
  | .chimp => .ok (.chimp (XorCodec.Reader.new chunk))
  | .chimp128 => .ok (.chimp128 (XorCodec.Reader.new chunk))
  | .elfOnChimp => .ok (.elfOnChimp (XorCodec.Reader.new chunk))
  | .elf => .ok (.elf (XorCodec.Reader.new chunk))
  | .deltaSprintz => .ok (.deltaSprintz (Sprintz.Reader.new n chunk))
  | .zstd => .ok (.zstd (External.Reader.new n chunk))
  | .gzip => .ok (.gzip (External.Reader.new n chunk))
  | .snappy => .ok (.snappy (External.Reader.new n chunk))
  | .ffiAlp => .ok (.ffiAlp (External.Reader.new n chunk))

/-- `with_precision` (chunk_reader.rs:73-77). -/
def withPrecision (p : Nat) : AnyReader → AnyReader
  | .buff r => .buff (r.withControlledPrecision p)
  | r => r

/-- `decompress` of the enum (426-437). -/
def decompress : AnyReader → Res (List B64 × AnyReader)
  | .uncompressed r => r.decompress.map fun p => (p.1, .uncompressed p.2)
  | .rle r => r.decompress.map fun p => (p.1, .rle p.2)
  | .gorilla r => (XorCodec.Reader.decompress Gorilla.codec r).map fun p => (p.1, .gorilla p.2)
  | .buff r => (r.decompress E.o).map fun p => (p.1, .buff p.2)
  | .chimp r => (XorCodec.Reader.decompress Chimp.codec r).map fun p => (p.1, .chimp p.2)
  | .chimp128 r => (XorCodec.Reader.decompress Chimp128.codec r).map fun p => (p.1, .chimp128 p.2)
  | .elfOnChimp r =>
    (XorCodec.Reader.decompress (Elf.elfOnChimp E.log10) r).map fun p => (p.1, .elfOnChimp p.2)
  | .elf r => (XorCodec.Reader.decompress (Elf.elf E.log10) r).map fun p => (p.1, .elf p.2)
  | .deltaSprintz r => (r.decompress E.o).map fun p => (p.1, .deltaSprintz p.2)
  | .zstd r => (r.decompress (External.decodeZstd E.zstd)).map fun p => (p.1, .zstd p.2)
  | .gzip r => (r.decompress (External.decodeExact E.gzip)).map fun p => (p.1, .gzip p.2)
  | .snappy r => (r.decompress (External.decodeExact E.snappy)).map fun p => (p.1, .snappy p.2)
  | .ffiAlp r => (r.decompress (External.decodeAlp E.alp)).map fun p => (p.1, .ffiAlp p.2)

/-- The query methods of the enum (chunk_reader.rs:474-640). -/
def exec (r : AnyReader) (off : Nat) (q : ChunkQuery) : Res (Answer × AnyReader) :=
  match r with
  | .deltaSprintz r => (r.exec E.o off q).map fun p => (p.1, .deltaSprintz p.2)
  | .buff r => (r.exec E.o E.useSimd off q).map fun p => (p.1, .buff p.2)
  | r => defaultExec E.o (decompress E) r off q

/-- A sequence of queries, dropping the answers. -/
def execAll (r : AnyReader) (off : Nat) : List ChunkQuery → Res AnyReader
  | [] => .ok r
  | q :: qs => do
    let (_, r) ← exec E r off q
    execAll r off qs

end AnyReader

end Ebi
