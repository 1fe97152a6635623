import Verif.Bytes

/-!
# On-disk metadata

`ebi/src/format.rs`, `format/serialize.rs`, `format/deserialize.rs`, `format/native.rs`, the
configuration part of `compressor.rs` and `time.rs`. `#[repr(C, packed)]` structs written with
`as_bytes()` are the concatenation of their fields; the machine is little endian, so `to_le` is the
identity. Integers are naturals here; `leBytes n` keeps the low `n` bytes, as storing into an `n`-byte
field does.
-/

namespace Ebi

/-- Slice indexing `bytes[..n]`, `bytes[n..]`: panics when out of bounds. -/
def cut (n : Nat) (bs : List Byte) : Res (List Byte × List Byte) :=
  if n ≤ bs.length then .ok (bs.take n, bs.drop n) else .panic

/-- `Read::read_exact` into a buffer of `n` bytes: `UnexpectedEof` is an `Err`. -/
def readExact (n : Nat) (bs : List Byte) : Res (List Byte × List Byte) :=
  match takeExact n bs with
  | some p => .ok p
  | none => .err

theorem cut_append (a b : List Byte) {n : Nat} (h : a.length = n) : cut n (a ++ b) = .ok (a, b) := by
  subst h; simp [cut]

theorem readExact_append (a b : List Byte) {n : Nat} (h : a.length = n) :
    readExact n (a ++ b) = .ok (a, b) := by
  rw [readExact, takeExact_append' a b h]

/-! ## Enumerations -/

/-- `CompressionScheme` (format.rs:182-199). -/
inductive SchemeId where
  | uncompressed | rle | buff | gorilla | chimp | chimp128 | elfOnChimp | elf | deltaSprintz
  | zstd | gzip | snappy | ffiAlp
deriving DecidableEq, Repr

/-- The discriminants (format.rs:186-198). -/
def SchemeId.code : SchemeId → Nat
  | .uncompressed => 0 | .rle => 1 | .buff => 2 | .gorilla => 3 | .chimp => 4 | .chimp128 => 5
  | .elfOnChimp => 6 | .elf => 7 | .deltaSprintz => 8 | .zstd => 9 | .gzip => 10 | .snappy => 11
  | .ffiAlp => 12

/-- `CompressionScheme::try_from_primitive` (num_enum; deserialize.rs:187-193). -/
def SchemeId.ofCode : Nat → Res SchemeId
  | 0 => .ok .uncompressed | 1 => .ok .rle | 2 => .ok .buff | 3 => .ok .gorilla | 4 => .ok .chimp
  | 5 => .ok .chimp128 | 6 => .ok .elfOnChimp | 7 => .ok .elf | 8 => .ok .deltaSprintz
  | 9 => .ok .zstd | 10 => .ok .gzip | 11 => .ok .snappy | 12 => .ok .ffiAlp
  | _ => .err

/-- `encoder::ChunkOption` (encoder.rs:26-32). -/
inductive ChunkOption where
  | full
  | recordCount (n : Nat)
  | byteSize (n : Nat)
deriving DecidableEq, Repr

/-- `From<&ChunkOption> for format::ChunkOption` (encoder.rs:34-54): the kind byte. -/
def ChunkOption.kind : ChunkOption → Nat
  | .full => 0
  | .recordCount _ => 1
  | .byteSize _ => 2

/-- ... and the value. -/
def ChunkOption.value : ChunkOption → Nat
  | .full => 0
  | .recordCount n => n
  | .byteSize n => n

/-- `format::ChunkOption` in memory: kind, reserved, value (format.rs:168-173). -/
def ChunkOption.bytes (o : ChunkOption) : List Byte :=
  leBytes 1 o.kind ++ leBytes 1 0 ++ leBytes 8 o.value

/-- `ChunkOption::try_from_le_bytes` (deserialize.rs:195-222) with `ChunkOptionKind` (224-236) and
the conversion to the native option (native.rs:52-58). Returns the bytes after it. -/
def ChunkOption.parse (bs : List Byte) : Res (ChunkOption × List Byte) := do
  let (k, bs) ← cut 1 bs
  if leNat k ≤ 2 then
    let (_, bs) ← cut 1 bs
    let (v, bs) ← cut 8 bs
    .ok (if leNat k = 0 then .full else if leNat k = 1 then .recordCount (leNat v)
      else .byteSize (leNat v), bs)
  else .err

/-! ## File header -/

/-- `FileHeader` / `NativeFileHeader` (format.rs:144-153, native.rs:14-24). The field type has the
single value F64 and is not kept. -/
structure Header where
  magic : List Byte
  scheme : SchemeId
  option : ChunkOption
  footerOffset : Nat
  version : Nat × Nat × Nat
deriving DecidableEq

/-- `header.to_le().as_bytes()`: magic, config (field type, scheme, chunk option), footer offset,
version. -/
def Header.bytes (h : Header) : List Byte :=
  h.magic ++ (leBytes 1 0 ++ (leBytes 1 h.scheme.code ++ (h.option.bytes ++
    (leBytes 8 h.footerOffset ++ (leBytes 2 h.version.1 ++ (leBytes 2 h.version.2.1 ++
      leBytes 2 h.version.2.2))))))

/-- `size_of::<FileHeader>()`. -/
def headerSize : Nat := 30

/-- `FileHeader::try_from_le_bytes` (deserialize.rs:118-157) with `FileConfig` (159-176), `FieldType`
(178-186) and `NativeFileHeader::from` (native.rs:32-43). The magic number is copied, not compared. -/
def Header.parse (bs : List Byte) : Res Header := do
  let (magic, bs) ← cut 4 bs
  let (ft, bs) ← cut 1 bs
  if leNat ft = 0 then
    let (sc, bs) ← cut 1 bs
    let scheme ← SchemeId.ofCode (leNat sc)
    let (option, bs) ← ChunkOption.parse bs
    let (fo, bs) ← cut 8 bs
    let (v0, bs) ← cut 2 bs
    let (v1, bs) ← cut 2 bs
    let (v2, _) ← cut 2 bs
    .ok ⟨magic, scheme, option, leNat fo, (leNat v0, leNat v1, leNat v2)⟩
  else .err

/-- `FileWriter::MAGIC_NUMBER` (encoder.rs:79): `EBI1`. -/
def magicNumber : List Byte := [0x45#8, 0x42#8, 0x49#8, 0x31#8]

/-! ## Compressor configuration -/

/-- `CompressorConfig` (compressor.rs:197-230) with the fields of each variant:
capacities `u64` (uncompressed.rs:99, run_length.rs:225, general_xor.rs, chimp_n.rs:48), BUFF scale
`u64` (buff.rs:88), Sprintz capacity and scale (sprintz.rs:34), Zstd level `i32` as a bit pattern
(zstd.rs:23), Gzip level `u32` (gzip.rs:25), Snappy and ALP empty (snappy.rs:24, ffi_alp.rs:25). -/
inductive Config where
  | uncompressed (capacity : BitVec 64)
  | rle (capacity : BitVec 64)
  | gorilla (capacity : BitVec 64)
  | buff (scale : BitVec 64)
  | chimp (capacity : BitVec 64)
  | chimp128 (capacity : BitVec 64)
  | elfOnChimp (capacity : BitVec 64)
  | elf (capacity : BitVec 64)
  | deltaSprintz (capacity : BitVec 64) (scale : BitVec 64)
  | zstd (level : BitVec 32)
  | gzip (level : BitVec 32)
  | snappy
  | ffiAlp
deriving DecidableEq

/-- `compression_scheme` (compressor.rs:253-262, 285-287). -/
def Config.scheme : Config → SchemeId
  | .uncompressed _ => .uncompressed | .rle _ => .rle | .gorilla _ => .gorilla | .buff _ => .buff
  | .chimp _ => .chimp | .chimp128 _ => .chimp128 | .elfOnChimp _ => .elfOnChimp | .elf _ => .elf
  | .deltaSprintz _ _ => .deltaSprintz | .zstd _ => .zstd | .gzip _ => .gzip | .snappy => .snappy
  | .ffiAlp => .ffiAlp

/-- The packed struct in memory: `$comp.to_le().as_bytes()` (compressor.rs:333-348). -/
def Config.payload : Config → List Byte
  | .uncompressed c | .rle c | .gorilla c | .chimp c | .chimp128 c | .elfOnChimp c | .elf c =>
    leBytes 8 c.toNat
  | .buff s => leBytes 8 s.toNat
  | .deltaSprintz c s => leBytes 8 c.toNat ++ leBytes 8 s.toNat
  | .zstd l => leBytes 4 l.toNat
  | .gzip l => leBytes 4 l.toNat
  | .snappy => []
  | .ffiAlp => []

/-- `CompressorConfig::serialize` (compressor.rs:331-365): a size byte, then the struct. -/
def Config.serialize (c : Config) : List Byte := leBytes 1 c.payload.length ++ c.payload

/-- `serialized_size` of the structs (deserialize.rs:355-364: the sum of the field sizes listed in the
macro call). -/
def Config.structSize : Config → Nat
  | .uncompressed _ | .rle _ | .gorilla _ | .chimp _ | .chimp128 _ | .elfOnChimp _ | .elf _ => 8
  | .buff _ => 8
  | .deltaSprintz _ _ => 8 + 8
  | .zstd _ => 4
  | .gzip _ => 4
  | .snappy => 0
  | .ffiAlp => 0

/-- `CompressorConfig::serialized_size` (compressor.rs:244-252). -/
def Config.serializedSize (c : Config) : Nat := 1 + c.structSize

/-- A `u64` field at the front of the slice (deserialize.rs:341-344). -/
def getU64 (bs : List Byte) : Res (BitVec 64 × List Byte) := do
  let (a, bs) ← cut 8 bs
  .ok (BitVec.ofNat 64 (leNat a), bs)

/-- A `u32`/`i32` field at the front of the slice. -/
def getU32 (bs : List Byte) : Res (BitVec 32 × List Byte) := do
  let (a, bs) ← cut 4 bs
  .ok (BitVec.ofNat 32 (leNat a), bs)

/-- `CompressorConfig::from_le_bytes` (compressor.rs:367-405) with the macro-generated
`from_le_bytes` (deserialize.rs:335-353): fields in order, trailing bytes ignored, a short slice
panics. The builders only store the fields. -/
def Config.fromLe (s : SchemeId) (bs : List Byte) : Res Config :=
  match s with
  | .uncompressed => (getU64 bs).map fun p => .uncompressed p.1
  | .rle => (getU64 bs).map fun p => .rle p.1
  | .buff => (getU64 bs).map fun p => .buff p.1
  | .gorilla => (getU64 bs).map fun p => .gorilla p.1
  | .chimp => (getU64 bs).map fun p => .chimp p.1
  | .chimp128 => (getU64 bs).map fun p => .chimp128 p.1
  | .elfOnChimp => (getU64 bs).map fun p => .elfOnChimp p.1
  | .elf => (getU64 bs).map fun p => .elf p.1
  | .deltaSprintz => do
    let (c, bs) ← getU64 bs
    let (s, _) ← getU64 bs
    .ok (.deltaSprintz c s)
  | .zstd => (getU32 bs).map fun p => .zstd p.1
  | .gzip => (getU32 bs).map fun p => .gzip p.1
  | .snappy => .ok .snappy
  | .ffiAlp => .ok .ffiAlp

/-! ## Times -/

/-- `std::time::Duration`: whole seconds (`u64`) and nanoseconds below one second. -/
structure Duration where
  secs : Nat
  nanos : Nat
deriving DecidableEq

/-- What every `Duration` satisfies. -/
def Duration.WF (d : Duration) : Prop := d.secs < 2 ^ 64 ∧ d.nanos < 1000000000

/-- `Duration::as_nanos`. -/
def Duration.asNanos (d : Duration) : Nat := d.secs * 1000000000 + d.nanos

/-- `u128_nanos_to_duration` (time.rs:197-202), also `compression_elapsed_time` (native.rs:120-125).
`Duration::new` would carry nanoseconds above one second, which cannot occur here. -/
def Duration.ofNanos (n : Nat) : Duration := ⟨n / 1000000000 % 2 ^ 64, n % 1000000000 % 2 ^ 32⟩

/-- `SegmentedExecutionTimes` (time.rs:79-86): nine durations in the order of `SegmentKind`. -/
structure Times where
  ioRead : Duration
  ioWrite : Duration
  xor : Duration
  delta : Duration
  quantization : Duration
  bitPacking : Duration
  compareInsert : Duration
  sum : Duration
  decompression : Duration
deriving DecidableEq

/-- `SerializableSegmentedExecutionTimes` in memory after `From<SegmentedExecutionTimes>`
(time.rs:128-141, 177-191). -/
def Times.bytes (t : Times) : List Byte :=
  leBytes 16 t.ioRead.asNanos ++ (leBytes 16 t.ioWrite.asNanos ++ (leBytes 16 t.xor.asNanos ++
    (leBytes 16 t.delta.asNanos ++ (leBytes 16 t.quantization.asNanos ++
      (leBytes 16 t.bitPacking.asNanos ++ (leBytes 16 t.compareInsert.asNanos ++
        (leBytes 16 t.sum.asNanos ++ leBytes 16 t.decompression.asNanos)))))))

/-- One `u128` at the front of the slice, as a duration. -/
def getNanos (bs : List Byte) : Res (Duration × List Byte) := do
  let (a, bs) ← cut 16 bs
  .ok (Duration.ofNanos (leNat a), bs)

/-- `SerializableSegmentedExecutionTimes::from_le_bytes` (time.rs:154-175) and the conversion back
(193-222); returns the bytes after it. -/
def Times.parse (bs : List Byte) : Res (Times × List Byte) := do
  let (t0, bs) ← getNanos bs
  let (t1, bs) ← getNanos bs
  let (t2, bs) ← getNanos bs
  let (t3, bs) ← getNanos bs
  let (t4, bs) ← getNanos bs
  let (t5, bs) ← getNanos bs
  let (t6, bs) ← getNanos bs
  let (t7, bs) ← getNanos bs
  let (t8, bs) ← getNanos bs
  .ok (⟨t0, t1, t2, t3, t4, t5, t6, t7, t8⟩, bs)

def Times.WF (t : Times) : Prop :=
  t.ioRead.WF ∧ t.ioWrite.WF ∧ t.xor.WF ∧ t.delta.WF ∧ t.quantization.WF ∧ t.bitPacking.WF ∧
    t.compareInsert.WF ∧ t.sum.WF ∧ t.decompression.WF

/-- `SegmentedExecutionTimes::new()` (time.rs:231-236). -/
def Times.zero : Times := ⟨⟨0, 0⟩, ⟨0, 0⟩, ⟨0, 0⟩, ⟨0, 0⟩, ⟨0, 0⟩, ⟨0, 0⟩, ⟨0, 0⟩, ⟨0, 0⟩, ⟨0, 0⟩⟩

/-! ## Footer -/

/-- `ChunkFooter` (format.rs:256-264). -/
structure ChunkFooter where
  physical : Nat
  logical : Nat
deriving DecidableEq, Repr

def ChunkFooter.bytes (f : ChunkFooter) : List Byte := leBytes 8 f.physical ++ leBytes 8 f.logical

/-- `ChunkFooter::from_le_bytes` (deserialize.rs:298-325) over `buf.chunks_exact(16)`
(decoder.rs:196-199), `n` whole pieces. -/
def chunkFootersOf : Nat → List Byte → List ChunkFooter
  | 0, _ => []
  | n + 1, bs => ⟨leNat (bs.take 8), leNat ((bs.drop 8).take 8)⟩ :: chunkFootersOf n (bs.drop 16)

/-- `NativeFileFooter` (native.rs:71-87). -/
structure Footer where
  records : Nat
  chunks : Nat
  chunkFooters : List ChunkFooter
  config : Config
  elapsedNanos : Nat
  times : Times
  crc : Nat
deriving DecidableEq

/-- Sizes of `FileFooter0`, `ChunkFooter`, `FileFooter3` (format.rs:223-254). -/
def footer0Size : Nat := 16
def chunkFooterSize : Nat := 16
def footer3Size : Nat := 164

/-- `FileWriter::write_footer` (encoder.rs:191-235), given the record count, the chunk footers without
the "next" one, the configuration and the timer. -/
def footerBytes (records : Nat) (cfs : List ChunkFooter) (config : Config) (times : Times) : List Byte :=
  leBytes 8 records ++ (leBytes 8 cfs.length ++ (cfs.flatMap ChunkFooter.bytes ++ (config.serialize ++
    (leBytes 16 0 ++ (times.bytes ++ leBytes 4 0)))))

/-- `FileReader::fetch_footer` (decoder.rs:174-220) from a stream positioned at the footer.
`size_of::<ChunkFooter>() * n_chunks` wraps (release). `Vec::resize` panics above `isize::MAX` bytes;
below that the allocation is assumed to succeed. `&mut buf[..1]` after reading the chunk footers panics
when there are none, because `buf` is then empty. -/
def fetchFooter (scheme : SchemeId) (bs : List Byte) : Res Footer := do
  let (b0, bs) ← readExact footer0Size bs
  let records := leNat (b0.take 8)
  let chunks := leNat (b0.drop 8)
  let size := chunkFooterSize * chunks % 2 ^ 64
  if 2 ^ 63 ≤ size then .panic
  else
    let (b1, bs) ← readExact size bs
    let cfs := chunkFootersOf (size / 16) b1
    if size = 0 then .panic
    else
      let (b2, bs) ← readExact 1 bs
      let (b3, bs) ← readExact (leNat b2) bs
      let config ← Config.fromLe scheme b3
      let (b4, _) ← readExact footer3Size bs
      let (el, b4) ← cut 16 b4
      let (times, b4) ← Times.parse b4
      let (crc, _) ← cut 4 b4
      .ok ⟨records, chunks, cfs, config, leNat el, times, leNat crc⟩

/-- `NativeFileFooter::size` (native.rs:105-110). -/
def Footer.size (f : Footer) : Nat :=
  footer0Size + f.chunkFooters.length * chunkFooterSize + f.config.serializedSize + footer3Size

/-- `compression_elapsed_time` (native.rs:120-125). -/
def Footer.elapsed (f : Footer) : Duration := Duration.ofNanos f.elapsedNanos

/-! ## Lemmas -/

theorem leNat_leBytes_of_lt {n x : Nat} (h : x < 256 ^ n) : leNat (leBytes n x) = x := by
  rw [leNat_leBytes, Nat.mod_eq_of_lt h]

@[simp] theorem cut_leBytes (n x : Nat) (t : List Byte) : cut n (leBytes n x ++ t) = .ok (leBytes n x, t) :=
  cut_append _ _ (leBytes_length n x)

@[simp] theorem cut_leBytes' (n x : Nat) : cut n (leBytes n x) = .ok (leBytes n x, []) := by
  have := cut_leBytes n x []
  rwa [List.append_nil] at this

theorem Config.payload_length (c : Config) : c.payload.length = c.structSize := by
  cases c <;> simp [payload, structSize]

theorem Config.structSize_le (c : Config) : c.structSize ≤ 16 := by
  cases c <;> simp [structSize]

theorem Config.serialize_length (c : Config) : c.serialize.length = c.serializedSize := by
  simp [serialize, serializedSize, payload_length]

theorem getU64_leBytes (c : BitVec 64) (t : List Byte) :
    getU64 (leBytes 8 c.toNat ++ t) = .ok (c, t) := by
  have := c.isLt
  simp [getU64, leNat_leBytes_of_lt (n := 8) (by simpa using this)]

theorem getU32_leBytes (c : BitVec 32) (t : List Byte) :
    getU32 (leBytes 4 c.toNat ++ t) = .ok (c, t) := by
  have := c.isLt
  simp [getU32, leNat_leBytes_of_lt (n := 4) (by simpa using this)]

theorem Config.fromLe_payload (c : Config) (t : List Byte) :
    Config.fromLe c.scheme (c.payload ++ t) = .ok c := by
  cases c <;> simp [fromLe, Config.scheme, payload, getU64_leBytes, getU32_leBytes, Res.map,
    List.append_assoc]

theorem SchemeId.ofCode_code (s : SchemeId) : SchemeId.ofCode s.code = .ok s := by
  cases s <;> rfl

theorem SchemeId.code_lt (s : SchemeId) : s.code < 256 := by
  cases s <;> simp [code]

/-- The on-disk value fits. -/
def ChunkOption.WF (o : ChunkOption) : Prop := o.value < 2 ^ 64

theorem ChunkOption.bytes_length (o : ChunkOption) : o.bytes.length = 10 := by simp [bytes]

theorem ChunkOption.parse_bytes (o : ChunkOption) (h : o.WF) (t : List Byte) :
    ChunkOption.parse (o.bytes ++ t) = .ok (o, t) := by
  have h8 : leNat (leBytes 8 o.value) = o.value := leNat_leBytes_of_lt (by simpa [WF] using h)
  have h1 : leNat (leBytes 1 o.kind) = o.kind := leNat_leBytes_of_lt (by cases o <;> simp [kind])
  cases o <;>
    simp [parse, bytes, List.append_assoc, h1, h8] <;> simp [kind, value]

/-- What every header the encoder builds satisfies. -/
structure Header.WF (h : Header) : Prop where
  magic : h.magic.length = 4
  option : h.option.WF
  footer : h.footerOffset < 2 ^ 64
  v0 : h.version.1 < 2 ^ 16
  v1 : h.version.2.1 < 2 ^ 16
  v2 : h.version.2.2 < 2 ^ 16

theorem Header.bytes_length (h : Header) (hm : h.magic.length = 4) : h.bytes.length = headerSize := by
  simp [bytes, hm, ChunkOption.bytes_length, headerSize]

theorem Header.parse_bytes (h : Header) (w : h.WF) : Header.parse h.bytes = .ok h := by
  obtain ⟨m, s, o, f, v0, v1, v2⟩ := h
  obtain ⟨h1, h2, h3, h4, h5, h6⟩ := w
  simp only at h1 h2 h3 h4 h5 h6
  have e0 : leNat (leBytes 1 0) = 0 := leNat_leBytes_of_lt (by simp)
  have e1 : leNat (leBytes 1 s.code) = s.code := leNat_leBytes_of_lt (by simpa using s.code_lt)
  have e2 : leNat (leBytes 8 f) = f := leNat_leBytes_of_lt (by simpa using h3)
  have e3 : leNat (leBytes 2 v0) = v0 := leNat_leBytes_of_lt (by simpa using h4)
  have e4 : leNat (leBytes 2 v1) = v1 := leNat_leBytes_of_lt (by simpa using h5)
  have e5 : leNat (leBytes 2 v2) = v2 := leNat_leBytes_of_lt (by simpa using h6)
  simp [parse, bytes, cut_append m _ h1, e0, e1, e2, e3, e4, e5, SchemeId.ofCode_code,
    ChunkOption.parse_bytes o h2]

theorem Duration.ofNanos_asNanos {d : Duration} (h : d.WF) : Duration.ofNanos d.asNanos = d := by
  obtain ⟨s, n⟩ := d
  obtain ⟨h1, h2⟩ := h
  simp only at h1 h2
  simp only [ofNanos, asNanos, Duration.mk.injEq]
  omega

theorem Duration.asNanos_lt {d : Duration} (h : d.WF) : d.asNanos < 256 ^ 16 := by
  obtain ⟨s, n⟩ := d
  obtain ⟨h1, h2⟩ := h
  simp only at h1 h2
  simp only [asNanos]
  omega

theorem getNanos_bytes {d : Duration} (h : d.WF) (t : List Byte) :
    getNanos (leBytes 16 d.asNanos ++ t) = .ok (d, t) := by
  simp [getNanos, leNat_leBytes_of_lt (Duration.asNanos_lt h), Duration.ofNanos_asNanos h]

theorem Times.bytes_length (t : Times) : t.bytes.length = 144 := by simp [bytes]

theorem Times.parse_bytes {t : Times} (h : t.WF) (rest : List Byte) :
    Times.parse (t.bytes ++ rest) = .ok (t, rest) := by
  obtain ⟨t0, t1, t2, t3, t4, t5, t6, t7, t8⟩ := t
  obtain ⟨h0, h1, h2, h3, h4, h5, h6, h7, h8⟩ := h
  simp only at h0 h1 h2 h3 h4 h5 h6 h7 h8
  simp [parse, bytes, List.append_assoc, getNanos_bytes h0, getNanos_bytes h1, getNanos_bytes h2,
    getNanos_bytes h3, getNanos_bytes h4, getNanos_bytes h5, getNanos_bytes h6, getNanos_bytes h7,
    getNanos_bytes h8]

def ChunkFooter.WF (f : ChunkFooter) : Prop := f.physical < 2 ^ 64 ∧ f.logical < 2 ^ 64

@[simp] theorem ChunkFooter.bytes_length (f : ChunkFooter) : f.bytes.length = 16 := by simp [bytes]

theorem chunkFooters_length (cfs : List ChunkFooter) :
    (cfs.flatMap ChunkFooter.bytes).length = 16 * cfs.length := by
  induction cfs with
  | nil => rfl
  | cons f fs ih => simp [ih]; omega

theorem chunkFootersOf_bytes (cfs : List ChunkFooter) (h : ∀ f ∈ cfs, f.WF) (t : List Byte) :
    chunkFootersOf cfs.length (cfs.flatMap ChunkFooter.bytes ++ t) = cfs := by
  induction cfs with
  | nil => rfl
  | cons f fs ih =>
    have hf := h f (by simp)
    obtain ⟨p, l⟩ := f
    simp only [ChunkFooter.WF] at hf
    have e1 : leNat (leBytes 8 p) = p := leNat_leBytes_of_lt (by simpa using hf.1)
    have e2 : leNat (leBytes 8 l) = l := leNat_leBytes_of_lt (by simpa using hf.2)
    have d8 : ∀ x : List Byte, (leBytes 8 p ++ x).drop 8 = x := fun x => by
      rw [List.drop_append_of_le_length (by simp)]; simp
    have t8 : ∀ y (x : List Byte), (leBytes 8 y ++ x).take 8 = leBytes 8 y := fun y x => by
      rw [List.take_append_of_le_length (by simp), List.take_of_length_le (by simp)]
    have d16 : ∀ x : List Byte, ((leBytes 8 p ++ leBytes 8 l) ++ x).drop 16 = x := fun x => by
      rw [List.drop_append_of_le_length (by simp)]; simp
    rw [List.length_cons, List.flatMap_cons, chunkFootersOf, ChunkFooter.bytes]
    rw [List.append_assoc, d16, ih (fun g hg => h g (by simp [hg]))]
    simp only [List.append_assoc, d8, t8, e1, e2]

/-- The footer as written, with an arbitrary elapsed time in its slot. -/
def footerBytesWith (elapsed records : Nat) (cfs : List ChunkFooter) (config : Config) (times : Times) :
    List Byte :=
  leBytes 8 records ++ (leBytes 8 cfs.length ++ (cfs.flatMap ChunkFooter.bytes ++ (config.serialize ++
    (leBytes 16 elapsed ++ (times.bytes ++ leBytes 4 0)))))

/-- With arbitrary bytes in place of the checksum. -/
theorem fetchFooter_bytes_crc {crc : List Byte} (hcrc : crc.length = 4) {elapsed records : Nat} {cfs : List ChunkFooter} (config : Config)
    {times : Times} (h0 : elapsed < 2 ^ 128) (h1 : records < 2 ^ 64) (h2 : ∀ f ∈ cfs, f.WF)
    (h3 : cfs.length < 2 ^ 59) (h4 : times.WF) (hne : cfs ≠ []) (rest : List Byte) :
    fetchFooter config.scheme ((leBytes 8 records ++ (leBytes 8 cfs.length ++ (cfs.flatMap ChunkFooter.bytes ++
      (config.serialize ++ (leBytes 16 elapsed ++ (times.bytes ++ crc)))))) ++ rest)
      = .ok ⟨records, cfs.length, cfs, config, elapsed, times, leNat crc⟩ := by
  have hlen : 0 < cfs.length := List.length_pos_iff.2 hne
  have e1 : leNat (leBytes 8 records) = records := leNat_leBytes_of_lt (by simpa using h1)
  have e2 : leNat (leBytes 8 cfs.length) = cfs.length :=
    leNat_leBytes_of_lt (by omega)
  have e3 : leNat (leBytes 16 elapsed) = elapsed := leNat_leBytes_of_lt (by simpa using h0)
  have e4 : leNat (leBytes 1 config.payload.length) = config.payload.length :=
    leNat_leBytes_of_lt (by rw [config.payload_length]; have := config.structSize_le; omega)
  have e5 := cut_append crc [] hcrc
  rw [List.append_nil] at e5
  have sz : chunkFooterSize * cfs.length % 2 ^ 64 = 16 * cfs.length := by
    simp only [chunkFooterSize]; omega
  have t8 : (leBytes 8 records ++ leBytes 8 cfs.length).take 8 = leBytes 8 records := by
    rw [List.take_append_of_le_length (by simp), List.take_of_length_le (by simp)]
  have d8 : (leBytes 8 records ++ leBytes 8 cfs.length).drop 8 = leBytes 8 cfs.length := by
    rw [List.drop_append_of_le_length (by simp)]; simp
  have hcf := chunkFootersOf_bytes cfs h2 []
  rw [List.append_nil] at hcf
  have hc := config.fromLe_payload []
  rw [List.append_nil] at hc
  unfold fetchFooter
  simp only [List.append_assoc]
  rw [← List.append_assoc (leBytes 8 records),
    readExact_append (leBytes 8 records ++ leBytes 8 cfs.length) _ (by simp [footer0Size])]
  simp only [Res.bind_ok, t8, d8, e1, e2, sz]
  rw [if_neg (by omega), readExact_append _ _ (chunkFooters_length cfs)]
  simp only [Res.bind_ok]
  rw [if_neg (by omega), show 16 * cfs.length / 16 = cfs.length by omega, hcf]
  simp only [Config.serialize, List.append_assoc]
  rw [readExact_append (leBytes 1 config.payload.length) _ (by simp)]
  simp only [Res.bind_ok, e4]
  rw [readExact_append config.payload _ rfl]
  simp only [Res.bind_ok, hc]
  have l3 : (leBytes 16 elapsed ++ (times.bytes ++ crc)).length = footer3Size := by
    simp [footer3Size, Times.bytes_length, hcrc]
  rw [← List.append_assoc times.bytes, ← List.append_assoc (leBytes 16 elapsed),
    readExact_append _ _ l3]
  simp [Times.parse_bytes h4, e3, e5]

theorem fetchFooter_bytes {elapsed records : Nat} {cfs : List ChunkFooter} (config : Config)
    {times : Times} (h0 : elapsed < 2 ^ 128) (h1 : records < 2 ^ 64) (h2 : ∀ f ∈ cfs, f.WF)
    (h3 : cfs.length < 2 ^ 59) (h4 : times.WF) (hne : cfs ≠ []) (rest : List Byte) :
    fetchFooter config.scheme (footerBytesWith elapsed records cfs config times ++ rest)
      = .ok ⟨records, cfs.length, cfs, config, elapsed, times, 0⟩ := by
  have h := fetchFooter_bytes_crc (crc := leBytes 4 0) (by simp) config h0 h1 h2 h3 h4 hne rest
  rwa [leNat_leBytes_of_lt (n := 4) (by simp)] at h

/-- With no chunk at all the decoder indexes an empty buffer. -/
theorem fetchFooter_no_chunks (s : SchemeId) (records : Nat) (rest : List Byte) :
    fetchFooter s (leBytes 8 records ++ (leBytes 8 0 ++ rest)) = .panic := by
  have e2 : leNat (leBytes 8 0) = 0 := leNat_leBytes_of_lt (by simp)
  have d8 : (leBytes 8 records ++ leBytes 8 0).drop 8 = leBytes 8 0 := by
    rw [List.drop_append_of_le_length (by simp)]; simp
  unfold fetchFooter
  rw [← List.append_assoc (leBytes 8 records),
    readExact_append (leBytes 8 records ++ leBytes 8 0) _ (by simp [footer0Size])]
  simp only [Res.bind_ok, d8, e2, chunkFooterSize]
  simp [readExact, takeExact]

theorem footerBytesWith_length (elapsed records : Nat) (cfs : List ChunkFooter) (config : Config)
    (times : Times) :
    (footerBytesWith elapsed records cfs config times).length
      = footer0Size + cfs.length * chunkFooterSize + config.serializedSize + footer3Size := by
  simp only [footerBytesWith, List.length_append, chunkFooters_length, Config.serialize_length,
    Times.bytes_length, footer0Size, chunkFooterSize, footer3Size, leBytes_length]
  omega

end Ebi
