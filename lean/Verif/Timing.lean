import Verif.Api

/-!
# Segmented execution times

`ebi/src/time.rs` and everything that measures with it: the encoder, the compressors, the chunk readers, the decoder and
the aggregations. How long a measurement takes is left open (`Clock`); every measurement that is stopped is written to a
log, which the code does not have, so that what the timers report can be compared with what was measured.

Simplified: durations are nanoseconds without a bound (`Duration` panics beyond 2^64 seconds). Only operations that
succeed are followed here; after an error the timers hold what had been added so far.
-/

namespace Ebi.Timing

open Ebi

/-- `SegmentKind` (time.rs:12-22). -/
inductive Kind where
  | ioRead | ioWrite | xor | delta | quantization | bitPacking | compareInsert | sum | decompression
deriving DecidableEq

/-- `SegmentedExecutionTimes` (80-86): nanoseconds by kind. -/
abbrev Tally := Kind → Nat

/-- `new` (234-239). -/
def Tally.zero : Tally := fun _ => 0

/-- `add_at` (265-269). -/
def Tally.addAt (t : Tally) (k : Kind) (d : Nat) : Tally := fun x => if x = k then t x + d else t x

/-- `update_at` (261-263). -/
def Tally.updateAt (t : Tally) (k : Kind) (d : Nat) : Tally := fun x => if x = k then d else t x

/-- `AddAssign` (116-126). -/
def Tally.plus (a b : Tally) : Tally := fun x => a x + b x

/-- What is written to the footer (`From`, 180-194, with `as_nanos`; the reader turns it back, `Format`). -/
def Tally.times (t : Tally) : Times :=
  ⟨.ofNanos (t .ioRead), .ofNanos (t .ioWrite), .ofNanos (t .xor), .ofNanos (t .delta), .ofNanos (t .quantization),
    .ofNanos (t .bitPacking), .ofNanos (t .compareInsert), .ofNanos (t .sum), .ofNanos (t .decompression)⟩

/-! ## `SegmentTimer` -/

/-- `SegmentTimer` (44-50) without the start and the borrow. -/
structure SegmentTimer where
  isAddition : Bool
  stopOnDrop : Bool
  kind : Kind

/-- `stop_without_drop` (57-64), given what `elapsed()` returns. -/
def SegmentTimer.record (s : SegmentTimer) (elapsed : Nat) (t : Tally) : Tally :=
  if s.isAddition then t.addAt s.kind elapsed else t.updateAt s.kind elapsed

/-- `Drop` (71-77). -/
def SegmentTimer.drop (s : SegmentTimer) (elapsed : Nat) (t : Tally) : Tally :=
  if s.stopOnDrop then s.record elapsed t else t

/-- `stop` (53-55): `self` is dropped at the end; `later` is the time elapsed by then. -/
def SegmentTimer.stop (s : SegmentTimer) (elapsed later : Nat) (t : Tally) : Tally := s.drop later (s.record elapsed t)

/-- `start_addition_measurement` (251-259). -/
def SegmentTimer.addition (k : Kind) : SegmentTimer := ⟨true, false, k⟩

/-- `start_measurement` (241-249). -/
def SegmentTimer.plain (k : Kind) : SegmentTimer := ⟨false, false, k⟩

/-! ## Measurements -/

/-- How long each measurement takes, by its number. -/
abbrev Clock := Nat → Nat

/-- All measurements that were stopped so far. -/
abbrev Log := List (Kind × Nat)

/-- `start_addition_measurement(k)` … `stop()`. -/
def measure (c : Clock) (k : Kind) (s : Tally × Log) : Tally × Log :=
  ((SegmentTimer.addition k).stop (c s.2.length) (c s.2.length) s.1, s.2 ++ [(k, c s.2.length)])

def measureAll (c : Clock) : List Kind → Tally × Log → Tally × Log
  | [], s => s
  | k :: ks, s => measureAll c ks (measure c k s)

/-- `start_measurement(k)` … `stop()`. -/
def remeasure (c : Clock) (k : Kind) (s : Tally × Log) : Tally × Log :=
  ((SegmentTimer.plain k).stop (c s.2.length) (c s.2.length) s.1, s.2 ++ [(k, c s.2.length)])

def remeasureAll (c : Clock) : List Kind → Tally × Log → Tally × Log
  | [], s => s
  | k :: ks, s => remeasureAll c ks (remeasure c k s)

/-! ## Encoder -/

/-- What `compress` and `prepare` measure (general_xor.rs:136-140, chimp_n.rs:76-80, sprintz.rs:149-176, buff.rs:48-50,
241-246, 253-305); `none` where `execution_times` is `None`. `flat`: no bits are needed for the deltas, DeltaSprintz
returns before the packing (sprintz.rs:166-168). The quantization of DeltaSprintz is a lazy iterator that is run inside
the next measurement (sprintz.rs:150-158); what a measurement encloses is not part of this model. -/
def compressorSegments (id : SchemeId) (flat : Bool) : Option (List Kind) :=
  match id with
  | .gorilla | .chimp | .chimp128 | .elfOnChimp | .elf => some [.xor]
  | .deltaSprintz => some ([.quantization, .delta] ++ if flat then [] else [.bitPacking])
  | .buff => some [.quantization, .delta, .bitPacking]
  | .uncompressed | .rle | .zstd | .gzip | .snappy | .ffiAlp => none

/-- `reset`, `compress` and `prepare` of a compressor whose timer is `t`: the timer afterwards. -/
def compressTimed (c : Clock) (id : SchemeId) (flat : Bool) (_t : Tally) (l : Log) : Tally × Log :=
  match compressorSegments id flat with
  | some ks => remeasureAll c ks (Tally.zero, l)
  | none => (Tally.zero, l)

/-- `ChunkWriter::write` (encoder.rs:315-411) on a chunk that is not empty: the timers of the chunk writer and of the
compressor. -/
def writeTimed (c : Clock) (id : SchemeId) (flat : Bool) (comp : Tally) (l : Log) : Tally × Tally × Log :=
  let (t, l) := measure c .ioRead (Tally.zero, l)
  let (comp, l) := compressTimed c id flat comp l
  let t := if (compressorSegments id flat).isSome then t.plus comp else t
  let (t, l) := measure c .ioWrite (t, l)
  (t, comp, l)

/-- `Encoder::encode` (api/encoder.rs:139-162): the chunks, then the read that finds the end of the input. -/
def encodeTimed (c : Clock) (id : SchemeId) : List Bool → Tally → Tally → Log → Tally × Log
  | [], total, _, l =>
    let (t, l) := measure c .ioRead (Tally.zero, l)
    (total.plus t, l)
  | flat :: flats, total, comp, l =>
    let (t, comp, l) := writeTimed c id flat comp l
    encodeTimed c id flats (total.plus t) comp l

/-! ## Chunk readers -/

/-- `GeneralChunkReader::new` (chunk_reader.rs:48-61): the readers that load the chunk at once measure it; those on an
external library load it when they decompress. -/
def openSegments : SchemeId → List Kind
  | .zstd | .gzip | .snappy | .ffiAlp => []
  | _ => [.ioRead]

/-- `decompress`: uncompressed.rs:56-71, run_length.rs:68-92, buff.rs:85-101 and the external ones (zstd.rs:40-62,
gzip.rs:43-67, snappy.rs:41-65, ffi_alp.rs:43-67) return before they measure if the values are there; general_xor.rs:73-79,
chimp_n.rs:61-70 and sprintz.rs:64-70 measure the look too. -/
def decompressSegments : AnyReader → List Kind
  | .uncompressed r => if r.values.isSome then [] else [.ioRead]
  | .rle r => if r.decompressed.isSome then [] else [.decompression]
  | .buff r => if r.decompressed.isSome then [] else [.bitPacking]
  | .gorilla _ | .chimp _ | .chimp128 _ | .elfOnChimp _ | .elf _ => [.xor]
  | .deltaSprintz _ => [.decompression]
  | .zstd r | .gzip r | .snappy r | .ffiAlp r => if r.decompressed.isSome then [] else [.ioRead, .decompression]

/-- The measurement in each `default_*` function (query.rs:15-192). -/
def defaultKind : ChunkQuery → Kind
  | .materialize _ | .filterMaterialize _ _ => .ioWrite
  | .filter _ _ | .min _ | .max _ => .compareInsert
  | .sum _ | .distanceSquared _ _ | .dotProduct _ _ => .sum

def defaultSegments (r : AnyReader) (q : ChunkQuery) : List Kind := decompressSegments r ++ [defaultKind q]

/-- `sum`, `min` and `max` of DeltaSprintz on the stored integers (sprintz.rs:176-265, 267-445): nothing for an empty
bitmask; when no record of the chunk is selected the timer is started and dropped. -/
def sprintzAggregate (r : Sprintz.Reader) (off : Nat) (bm : Option Bitmap) : List Kind :=
  match bm with
  | none => [.compareInsert]
  | some b => if Sprintz.inChunk off r.numberOfRecords b = [] then [] else [.compareInsert]

/-- What a query measures when it succeeds. In situ: sprintz.rs:90-265, buff.rs:127-325 (`min` and `max` return NaN with
the timer running when no record is selected). -/
def segments (r : AnyReader) (off : Nat) (q : ChunkQuery) : List Kind :=
  match r, q with
  | .deltaSprintz s, .filter _ _ =>
    if s.decompressed.isSome then defaultSegments r q else if s.numberOfRecords = 0 then [] else [.compareInsert]
  | .deltaSprintz s, .sum bm | .deltaSprintz s, .min bm | .deltaSprintz s, .max bm =>
    if s.decompressed.isSome then defaultSegments r q else sprintzAggregate s off bm
  | .buff _, .filter _ _ => [.compareInsert]
  | .buff _, .filterMaterialize _ _ => .compareInsert :: defaultSegments r q
  | .buff b, .min bm | .buff b, .max bm => if b.restrict bm (off % 2 ^ 32) = some [] then [] else [.compareInsert]
  | .buff _, .sum _ => [.sum]
  | r, q => defaultSegments r q

/-- `GeneralChunkReader` (chunk_reader.rs:33-37) with its timer. -/
structure Timed where
  handle : Handle
  timer : Tally

/-- `chunk_reader` (api/decoder.rs:726-752). -/
def openTimed (E : Env) (c : Clock) (d : Decoder) (i : Nat) (l : Log) : Res (Timed × Log) :=
  (d.chunkReader E i).map fun h =>
    let s := measureAll c (openSegments d.info.header.scheme) (Tally.zero, l)
    (⟨h, s.1⟩, s.2)

/-- The query methods (chunk_reader.rs:122-260). -/
def Timed.exec (E : Env) (c : Clock) (x : Timed) (q : ChunkQuery) (l : Log) : Res (Answer × Timed × Log) :=
  (x.handle.exec E q).map fun p =>
    let s := measureAll c (segments x.handle.reader x.handle.off q) (x.timer, l)
    (p.1, ⟨p.2, s.1⟩, s.2)

/-! ## Decoder -/

/-- How the queries put the answers of the chunks together; other kinds of answers do not occur. -/
def joinValues (out : List B64) : Answer → Res (List B64)
  | .values vs => .ok (out ++ vs)
  | _ => .panic

def joinBitmaps (out : Bitmap) : Answer → Res Bitmap
  | .bitmap b => .ok (Bitmap.union out b)
  | _ => .panic

def joinNumbers (f : B64 → B64 → B64) (out : B64) : Answer → Res B64
  | .number v => .ok (f out v)
  | _ => .panic

/-- The loop of `materialize`, `filter`, `filter_materialize`, `sum`, `min`, `max` (api/decoder.rs:202-439) with the
decoder's timer, which is set to zero first. -/
def queryTimed {A : Type} (E : Env) (c : Clock) (d : Decoder) (q : ChunkQuery) (join : A → Answer → Res A)
    (bm : Option Bitmap) (cid : Option Nat) (init : A) (l : Log) : Res (A × Tally × Log) :=
  chunkLoop d.info bm cid (fun i (s : A × Tally × Log) => do
    let (x, l) ← openTimed E c d i s.2.2
    let (answer, x, l) ← x.exec E c q l
    let a ← join s.1 answer
    .ok (a, s.2.1.plus x.timer, l)) (Query.handles d.info) (init, Tally.zero, l)

/-! ## Nearest neighbour -/

/-- A query that returns a number. -/
def Timed.number (E : Env) (c : Clock) (x : Timed) (q : ChunkQuery) (l : Log) : Res (B64 × Timed × Log) :=
  match x.exec E c q l with
  | .ok (.number v, x, l) => .ok (v, x, l)
  | .ok _ => .panic
  | .err => .err
  | .panic => .panic

/-- The `while` loop of `knn1` (511-527). -/
def knnWhileTimed (E : Env) (c : Clock) (target : List B64) (n : Nat) : Nat → Timed → Nat → KnnState → Log →
    Option (Res (Timed × KnnState × Log))
  | fuel, x, offset, s, l =>
    if offset < n then
      match fuel with
      | 0 => none
      | fuel + 1 =>
        let k := min target.length (n - offset)
        match x.number E c (.distanceSquared offset (target.take k)) l with
        | .err => some .err
        | .panic => some .panic
        | .ok (dist, x, l) =>
          let p : Knn := { s.processing with distance := dist }
          if k = target.length then
            knnWhileTimed E c target n fuel x (offset + k)
              ⟨{ p with index := p.index + 1 }, if fle p.distance s.best.distance then p else s.best, s.remaining⟩ l
          else
            knnWhileTimed E c target n fuel x (offset + k) ⟨p, s.best, target.length - k⟩ l
    else some (.ok (x, s, l))

/-- The part of a vector begun in the previous chunk (495-509). -/
def knnContinueTimed (E : Env) (c : Clock) (target : List B64) (x : Timed) (s : KnnState) (l : Log) :
    Res (Timed × KnnState × Log) :=
  if s.remaining ≠ 0 then
    match x.number E c (.distanceSquared 0 (target.drop (target.length - s.remaining))) l with
    | .err => .err
    | .panic => .panic
    | .ok (dist, x, l) =>
      let p : Knn := { s.processing with distance := E.o.add s.processing.distance dist }
      .ok (x, ⟨{ p with index := p.index + 1 }, if flt p.distance s.best.distance then p else s.best, 0⟩, l)
  else .ok (x, s, l)

/-- The loop over the chunks (489-530); `t` is the decoder's timer, zero at the start (478). -/
def knnTimed (E : Env) (c : Clock) (d : Decoder) (target : List B64) (fuel : Nat) : List Nat → KnnState → Tally → Log →
    Option (Res (KnnState × Tally × Log))
  | [], s, t, l => some (.ok (s, t, l))
  | i :: is, s, t, l =>
    match openTimed E c d i l with
    | .err => some .err
    | .panic => some .panic
    | .ok (x, l) =>
      match knnContinueTimed E c target x s l with
      | .err => some .err
      | .panic => some .panic
      | .ok (x, s, l) =>
        match knnWhileTimed E c target x.handle.records fuel x 0 s l with
        | none => none
        | some .err => some .err
        | some .panic => some .panic
        | some (.ok (x, s, l)) => knnTimed E c d target fuel is s (t.plus x.timer) l

/-! ## Matrix products -/

/-- The columns of the target (641-646). -/
def dotColumnsTimed (E : Env) (c : Clock) (at' : Nat) : List (List B64) → Timed → Log → Res (List B64 × Timed × Log)
  | [], x, l => .ok ([], x, l)
  | col :: cols, x, l => do
    let (v, x, l) ← x.number E c (.dotProduct at' col) l
    let (vs, x, l) ← dotColumnsTimed E c at' cols x l
    .ok (v :: vs, x, l)

/-- The rows of one data matrix (640-647). -/
def dotRowsTimed (E : Env) (c : Clock) (cols : List (List B64)) (offset dc : Nat) :
    Nat → Nat → Timed → Log → Res (List B64 × Timed × Log)
  | 0, _, x, l => .ok ([], x, l)
  | k + 1, row, x, l => do
    let (vs, x, l) ← dotColumnsTimed E c (offset + row * dc) cols x l
    let (ws, x, l) ← dotRowsTimed E c cols offset dc k (row + 1) x l
    .ok (vs ++ ws, x, l)

/-- The loop over the batch and the last addition (633-653): `t` is the local timer. -/
def matmulTimed (E : Env) (c : Clock) (d : Decoder) (cols : List (List B64)) (dr dc : Nat) :
    Nat → Nat → Nat → Timed → Tally → Log → Res (List B64 × Tally × Log)
  | 0, _, _, x, t, l => .ok ([], t.plus x.timer, l)
  | b + 1, chunk, offset, x, t, l => do
    let (chunk, offset, x, t, l) ←
      if x.handle.records ≤ offset then do
        let t := t.plus x.timer
        let (x, l) ← openTimed E c d (chunk + 1) l
        .ok (chunk + 1, 0, x, t, l)
      else .ok (chunk, offset, x, t, l)
    let (vs, x, l) ← dotRowsTimed E c cols offset dc dr 0 x l
    let (ws, t, l) ← matmulTimed E c d cols dr dc b chunk (offset + dr * dc) x t l
    .ok (vs ++ ws, t, l)

/-! ## Expressions -/

/-- `compute_chunk` (expr.rs:67-123): before a column is materialized the timer of its reader is reset (111), afterwards
it is added (113). -/
def computeTimed (E : Env) (c : Clock) (bm : Option Bitmap) :
    Expr → List Timed → Tally × Log → Res (List B64 × List Timed × (Tally × Log))
  | .literal _, _, _ => .err
  | .binary op l r, xs, s =>
    match l.asLiteral, r.asLiteral with
    | none, none => do
      let (ls, xs, s) ← computeTimed E c bm l xs s
      let (rs, xs, s) ← computeTimed E c bm r xs s
      .ok (List.zipWith (op.doit E.o) ls rs, xs, s)
    | none, some v => do
      let (ls, xs, s) ← computeTimed E c bm l xs s
      .ok (ls.map fun x => op.doit E.o x v, xs, s)
    | some v, none => do
      let (rs, xs, s) ← computeTimed E c bm r xs s
      .ok (rs.map fun x => op.doit E.o v x, xs, s)
    | some _, some _ => .err
  | .index i, xs, s =>
    match xs[i]? with
    | none => .panic
    | some x =>
      match ({ x with timer := Tally.zero } : Timed).exec E c (.materialize bm) s.2 with
      | .ok (.values vs, x', l) =>
        if x.handle.records < vs.length then .err else .ok (vs, xs.set i x', (s.1.plus x'.timer, l))
      | .ok _ => .panic
      | .err => .err
      | .panic => .panic

/-- The readers of one chunk (api/decoder.rs:871-874, 903-906). -/
def openAllTimed (E : Env) (c : Clock) (i : Nat) : List Decoder → Log → Res (List Timed × Log)
  | [], l => .ok ([], l)
  | d :: ds, l => do
    let (x, l) ← openTimed E c d i l
    let (xs, l) ← openAllTimed E c i ds l
    .ok (x :: xs, l)

/-- `dispatch` (812-823), with the decoder's own timer. -/
def dispatchTimed (E : Env) (c : Clock) (k : AggKind) (d : Decoder) (bm : Option Bitmap) (l : Log) :
    Res (AggResult × Tally × Log) :=
  match k with
  | .none => .panic
  | .max => (queryTimed E c d (.max bm) (joinNumbers E.o.fmax) bm none negInf l).map fun r => (.scalar r.1, r.2)
  | .min => (queryTimed E c d (.min bm) (joinNumbers E.o.fmin) bm none posInf l).map fun r => (.scalar r.1, r.2)
  | .sum => (queryTimed E c d (.sum bm) (joinNumbers E.o.add) bm none 0#64 l).map fun r => (.scalar r.1, r.2)

/-- The loop of `compute` (870-877). -/
def aggTimed (E : Env) (c : Clock) (a : Aggregation) (ds : List Decoder) (bm : Option Bitmap) :
    List Nat → AggResult → Tally × Log → Res (AggResult × (Tally × Log))
  | [], acc, s => .ok (acc, s)
  | i :: is, acc, s => do
    let (xs, l) ← openAllTimed E c i ds s.2
    let (vs, _, s) ← computeTimed E c bm a.expr xs (s.1, l)
    let acc ← AggResult.concat E.o a.kind acc (a.kind.dispatchOnVec E.o vs)
    aggTimed E c a ds bm is acc s

/-- `Aggregation::compute` (858-880): for a bare column the timer that was handed in is not touched. -/
def computeAllTimed (E : Env) (c : Clock) (a : Aggregation) (ds : List Decoder) (bm : Option Bitmap)
    (s : Tally × Log) : Res (AggResult × (Tally × Log)) :=
  match a.expr with
  | .index i => do
    let d ← decoderAt ds i
    let r ← dispatchTimed E c a.kind d bm s.2
    .ok (r.1, (s.1, r.2.2))
  | _ => do
    let d ← decoderAt ds 0
    aggTimed E c a ds bm (List.range d.info.footer.chunks) (AggResult.zero a.kind) s

/-- The first loop of `compute_multiple` (889-899): here the decoder's timer is added. -/
def startTimed (E : Env) (c : Clock) (ds : List Decoder) (bm : Option Bitmap) :
    List Aggregation → Tally × Log → Res (List (AggResult × Bool) × (Tally × Log))
  | [], s => .ok ([], s)
  | a :: as, s => do
    let (r, s) ← match a.expr with
      | .index i => do
        let d ← decoderAt ds i
        let r ← dispatchTimed E c a.kind d bm s.2
        .ok ((r.1, true), (s.1.plus r.2.1, r.2.2))
      | _ => .ok ((AggResult.zero a.kind, false), s)
    let (rs, s) ← startTimed E c ds bm as s
    .ok (r :: rs, s)

/-- The aggregations of one chunk on shared readers (907-912). -/
def stepTimed (E : Env) (c : Clock) (bm : Option Bitmap) :
    List Aggregation → List (AggResult × Bool) → List Timed → Tally × Log →
      Res (List (AggResult × Bool) × (Tally × Log))
  | a :: as, (acc, done) :: rs, xs, s =>
    if done then do
      let (rs, s) ← stepTimed E c bm as rs xs s
      .ok ((acc, done) :: rs, s)
    else do
      let (vs, xs, s) ← computeTimed E c bm a.expr xs s
      let acc ← AggResult.concat E.o a.kind acc (a.kind.dispatchOnVec E.o vs)
      let (rs, s) ← stepTimed E c bm as rs xs s
      .ok ((acc, done) :: rs, s)
  | _, rs, _, s => .ok (rs, s)

/-- The loop over the chunks (901-913). -/
def multiTimed (E : Env) (c : Clock) (as : List Aggregation) (ds : List Decoder) (bm : Option Bitmap) :
    List Nat → List (AggResult × Bool) → Tally × Log → Res (List (AggResult × Bool) × (Tally × Log))
  | [], rs, s => .ok (rs, s)
  | i :: is, rs, s => do
    let (xs, l) ← openAllTimed E c i ds s.2
    let (rs, s) ← stepTimed E c bm as rs xs (s.1, l)
    multiTimed E c as ds bm is rs s

/-- `Aggregation::compute_multiple` (882-916). -/
def computeMultipleTimed (E : Env) (c : Clock) (as : List Aggregation) (ds : List Decoder) (bm : Option Bitmap)
    (s : Tally × Log) : Res (List AggResult × (Tally × Log)) := do
  let (rs, s) ← startTimed E c ds bm as s
  let d ← decoderAt ds 0
  let (rs, s) ← multiTimed E c as ds bm (List.range d.info.footer.chunks) rs s
  .ok (rs.map Prod.fst, s)

end Ebi.Timing
