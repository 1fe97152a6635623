import Verif.Decoder
import Verif.Registry

/-!
# Queries of `Decoder` that keep one chunk reader open, expressions and aggregations

`ebi/src/api/decoder.rs:469-533, 606-656, 726-916` and `ebi/src/decoder/expr.rs`.
-/

namespace Ebi

/-! ## Decoder and chunk readers -/

/-- `Decoder` (api/decoder.rs:121-133): the input, the metadata read when it was opened, and the
precision set by `with_precision`. -/
structure Decoder where
  file : List Byte
  info : Metadata
  precision : Option Nat

/-- `GeneralChunkReader` (chunk_reader.rs:33-37): the reader with what it takes from its handle. -/
structure Handle where
  reader : AnyReader
  /-- `number_of_records` (chunk_reader.rs:106-108) -/
  records : Nat
  /-- logical offset of the first record -/
  off : Nat

/-- `make_chunk_reader` and `with_precision` (745-749) on a loaded chunk. -/
def freshHandle (id : SchemeId) (precision : Option Nat) (n : Nat) (bs : List Byte) (off : Nat) : Res Handle := do
  let r ← AnyReader.new id n bs
  .ok ⟨match precision with
    | some p => r.withPrecision p
    | none => r, n, off⟩

/-- `chunk_reader` (726-737), `chunk_reader_from_handle` (739-752). An index beyond the handles panics.
The scheme is the one in the header; the footer's configuration was parsed for that scheme, so asking it
whether the constructor unwraps is the same. -/
def Decoder.chunkReader (E : Env) (d : Decoder) (i : Nat) : Res Handle := do
  let (n, bs, off) ← loadChunk (E.scheme d.info.footer.config) d.file d.info i
  freshHandle d.info.header.scheme d.precision n bs off

/-- The query methods of `GeneralChunkReader` (chunk_reader.rs:122-260). -/
def Handle.exec (E : Env) (h : Handle) (q : ChunkQuery) : Res (Answer × Handle) :=
  (AnyReader.exec E h.reader h.off q).map fun p => (p.1, { h with reader := p.2 })

/-- A query that returns a number. The other answers do not occur. -/
def Handle.number (E : Env) (h : Handle) (q : ChunkQuery) : Res (B64 × Handle) :=
  match h.exec E q with
  | .ok (.number v, h) => .ok (v, h)
  | .ok _ => .panic
  | .err => .err
  | .panic => .panic

/-- A query that writes values. -/
def Handle.values (E : Env) (h : Handle) (q : ChunkQuery) : Res (List B64 × Handle) :=
  match h.exec E q with
  | .ok (.values vs, h) => .ok (vs, h)
  | .ok _ => .panic
  | .err => .err
  | .panic => .panic

/-- A query that returns a bitmap. -/
def Handle.bitmap (E : Env) (h : Handle) (q : ChunkQuery) : Res (Bitmap × Handle) :=
  match h.exec E q with
  | .ok (.bitmap b, h) => .ok (b, h)
  | .ok _ => .panic
  | .err => .err
  | .panic => .panic

/-- One query on a fresh reader, as the loops over chunks use them (api/decoder.rs:202-439). -/
def AnyReader.ops (E : Env) (id : SchemeId) (precision : Option Nat) : ChunkOps where
  materialize n bs bm off := do
    let h ← freshHandle id precision n bs off
    (h.values E (.materialize bm)).map Prod.fst
  filter n bs p bm off := do
    let h ← freshHandle id precision n bs off
    (h.bitmap E (.filter p bm)).map Prod.fst
  filterMaterialize n bs p bm off := do
    let h ← freshHandle id precision n bs off
    (h.values E (.filterMaterialize p bm)).map Prod.fst
  sum n bs bm off := do
    let h ← freshHandle id precision n bs off
    (h.number E (.sum bm)).map Prod.fst
  min n bs bm off := do
    let h ← freshHandle id precision n bs off
    (h.number E (.min bm)).map Prod.fst
  max n bs bm off := do
    let h ← freshHandle id precision n bs off
    (h.number E (.max bm)).map Prod.fst

namespace Decoder

variable (E : Env) (d : Decoder)

def ops : ChunkOps := AnyReader.ops E d.info.header.scheme d.precision

/-- `Decoder::{materialize, filter, filter_materialize, sum, min, max}` (202-439). -/
def materialize (bm : Option Bitmap) (cid : Option Nat) : Res (List B64) :=
  Query.materialize (E.scheme d.info.footer.config) (d.ops E) d.file d.info bm cid

def filter (p : Predicate B64) (bm : Option Bitmap) (cid : Option Nat) : Res Bitmap :=
  Query.filter (E.scheme d.info.footer.config) (d.ops E) d.file d.info bm cid p

def filterMaterialize (p : Predicate B64) (bm : Option Bitmap) (cid : Option Nat) : Res (List B64) :=
  Query.filterMaterialize (E.scheme d.info.footer.config) (d.ops E) d.file d.info bm cid p

def sum (bm : Option Bitmap) (cid : Option Nat) : Res B64 :=
  Query.sum (E.scheme d.info.footer.config) (d.ops E) E.o d.file d.info bm cid

def min (bm : Option Bitmap) (cid : Option Nat) : Res B64 :=
  Query.min (E.scheme d.info.footer.config) (d.ops E) E.o d.file d.info bm cid

def max (bm : Option Bitmap) (cid : Option Nat) : Res B64 :=
  Query.max (E.scheme d.info.footer.config) (d.ops E) E.o d.file d.info bm cid

end Decoder

/-! ## knn1 -/

/-- `KnnResult` (api/decoder.rs:114-119). -/
structure Knn where
  index : Nat
  distance : B64
deriving DecidableEq

/-- Loop variables of `knn1` (480-488). -/
structure KnnState where
  processing : Knn
  best : Knn
  remaining : Nat
deriving DecidableEq

/-- `usize::MAX`. -/
def usizeMax : Nat := 2 ^ 64 - 1

def KnnState.init : KnnState := ⟨⟨0, 0#64⟩, ⟨usizeMax, posInf⟩, 0⟩

/-- The `while` loop (511-527), at most `fuel` iterations; `none` when they did not suffice. -/
def knnWhile (E : Env) (target : List B64) (n : Nat) : Nat → Handle → Nat → KnnState →
    Option (Res (Handle × KnnState))
  | fuel, h, offset, s =>
    if offset < n then
      match fuel with
      | 0 => none
      | fuel + 1 =>
        let k := min target.length (n - offset)
        match h.number E (.distanceSquared offset (target.take k)) with
        | .err => some .err
        | .panic => some .panic
        | .ok (dist, h) =>
          let p : Knn := { s.processing with distance := dist }
          if k = target.length then
            knnWhile E target n fuel h (offset + k)
              ⟨{ p with index := p.index + 1 }, if fle p.distance s.best.distance then p else s.best, s.remaining⟩
          else
            knnWhile E target n fuel h (offset + k) ⟨p, s.best, target.length - k⟩
    else some (.ok (h, s))

/-- The part of a vector begun in the previous chunk (495-509). `remaining_records` is cleared before it
is added to `offset`, so the loop that follows starts at offset 0 all the same. -/
def knnContinue (E : Env) (target : List B64) (h : Handle) (s : KnnState) : Res (Handle × KnnState) :=
  if s.remaining ≠ 0 then
    match h.number E (.distanceSquared 0 (target.drop (target.length - s.remaining))) with
    | .err => .err
    | .panic => .panic
    | .ok (dist, h) =>
      let p : Knn := { s.processing with distance := E.o.add s.processing.distance dist }
      .ok (h, ⟨{ p with index := p.index + 1 }, if flt p.distance s.best.distance then p else s.best, 0⟩)
  else .ok (h, s)

/-- The loop over the chunk handles (489-530). -/
def knnLoop (E : Env) (d : Decoder) (target : List B64) (fuel : Nat) : List Nat → KnnState →
    Option (Res KnnState)
  | [], s => some (.ok s)
  | i :: is, s =>
    match d.chunkReader E i with
    | .err => some .err
    | .panic => some .panic
    | .ok h =>
      match knnContinue E target h s with
      | .err => some .err
      | .panic => some .panic
      | .ok (h, s) =>
        match knnWhile E target h.records fuel h 0 s with
        | none => none
        | some .err => some .err
        | some .panic => some .panic
        | some (.ok (_, s)) => knnLoop E d target fuel is s

/-- `Decoder::knn1` (469-533); `fuel` bounds the iterations per chunk, `none` is a run that needs more. -/
def Decoder.knn1 (E : Env) (d : Decoder) (target : List B64) (fuel : Nat) : Option (Res Knn) :=
  match knnLoop E d target fuel (Query.handles d.info) KnnState.init with
  | none => none
  | some r => some (r.map KnnState.best)

/-! ## matmul -/

/-- `chunks_exact(k)`, with the number of whole pieces. -/
def chunksExact {A : Type} (k : Nat) : Nat → List A → List (List A)
  | 0, _ => []
  | m + 1, xs => xs.take k :: chunksExact k m (xs.drop k)

/-- The columns of the target (641-646). -/
def dotColumns (E : Env) (at' : Nat) : List (List B64) → Handle → Res (List B64 × Handle)
  | [], h => .ok ([], h)
  | col :: cols, h => do
    let (v, h) ← h.number E (.dotProduct at' col)
    let (vs, h) ← dotColumns E at' cols h
    .ok (v :: vs, h)

/-- The rows of one data matrix (640-647): rows `row`, `row + 1`, …, `k` of them. -/
def dotRows (E : Env) (cols : List (List B64)) (offset dc : Nat) : Nat → Nat → Handle → Res (List B64 × Handle)
  | 0, _, h => .ok ([], h)
  | k + 1, row, h => do
    let (vs, h) ← dotColumns E (offset + row * dc) cols h
    let (ws, h) ← dotRows E cols offset dc k (row + 1) h
    .ok (vs ++ ws, h)

/-- The loop over the batch (633-649). -/
def matmulLoop (E : Env) (d : Decoder) (cols : List (List B64)) (dr dc : Nat) : Nat → Nat → Nat → Handle →
    Res (List B64)
  | 0, _, _, _ => .ok []
  | b + 1, chunk, offset, h => do
    let (chunk, offset, h) ←
      if h.records ≤ offset then do
        let h ← d.chunkReader E (chunk + 1)
        .ok (chunk + 1, 0, h)
      else .ok (chunk, offset, h)
    let (vs, h) ← dotRows E cols offset dc dr 0 h
    let ws ← matmulLoop E d cols dr dc b chunk (offset + dr * dc) h
    .ok (vs ++ ws)

/-- `Decoder::matmul` (606-656), shapes (rows, columns). `data_rows * data_columns` and the capacity are
`usize` products (wrapping in a release build); the remainder by zero panics, and so does a capacity above
`isize::MAX` bytes. The offsets inside a chunk are kept unbounded. -/
def Decoder.matmul (E : Env) (d : Decoder) (target : List B64) (targetShape dataShape : Nat × Nat) :
    Res (List B64) :=
  let (tr, tc) := targetShape
  let (dr, dc) := dataShape
  let size := dr * dc % 2 ^ 64
  if size = 0 then .panic
  else if dc ≠ tr ∨ d.info.footer.records % size ≠ 0 then .err
  else
    let batch := d.info.footer.records / size
    if 2 ^ 63 ≤ 8 * (batch * dr * tc % 2 ^ 64) then .panic
    else do
      let h ← d.chunkReader E 0
      if batch = 0 then .ok []
      else if tr = 0 then .panic
      else matmulLoop E d (chunksExact tr (target.length / tr) target) dr dc batch 0 0 h

/-! ## Expressions -/

/-- `Op` (expr.rs:11-17). -/
inductive Op where
  | add | sub | mul | div
deriving DecidableEq

/-- `Op::doit` (19-29). -/
def Op.doit (o : FloatOps) : Op → B64 → B64 → B64
  | .add => o.add
  | .sub => o.sub
  | .mul => o.mul
  | .div => o.div

/-- `Expr` (31-40). -/
inductive Expr where
  | literal (v : B64)
  | binary (op : Op) (lhs rhs : Expr)
  | index (i : Nat)
deriving DecidableEq

namespace Expr

/-- `max_chunk_reader_index` (43-58). -/
def maxIndex : Expr → Option Nat
  | .literal _ => none
  | .binary _ l r =>
    match l.maxIndex, r.maxIndex with
    | none, none => none
    | none, some i => some i
    | some i, none => some i
    | some i, some j => some (Nat.max i j)
  | .index i => some i

/-- `literal` (60-65). -/
def asLiteral : Expr → Option B64
  | .literal v => some v
  | _ => none

/-- `compute_chunk` (67-123). `materialize` writes into a buffer of `number_of_records * 8` bytes and
fails (`WriteZero`) when there is more. -/
def computeChunk (E : Env) (bm : Option Bitmap) : Expr → List Handle → Res (List B64 × List Handle)
  | .literal _, _ => .err
  | .binary op l r, hs =>
    match l.asLiteral, r.asLiteral with
    | none, none => do
      let (ls, hs) ← computeChunk E bm l hs
      let (rs, hs) ← computeChunk E bm r hs
      .ok (List.zipWith (op.doit E.o) ls rs, hs)
    | none, some v => do
      let (ls, hs) ← computeChunk E bm l hs
      .ok (ls.map fun x => op.doit E.o x v, hs)
    | some v, none => do
      let (rs, hs) ← computeChunk E bm r hs
      .ok (rs.map fun x => op.doit E.o v x, hs)
    | some _, some _ => .err
  | .index i, hs =>
    match hs[i]? with
    | none => .panic
    | some h =>
      match h.values E (.materialize bm) with
      | .err => .err
      | .panic => .panic
      | .ok (vs, h') => if h.records < vs.length then .err else .ok (vs, hs.set i h')

end Expr

/-! ## Aggregations -/

/-- `AggregationKind` (756-761). -/
inductive AggKind where
  | none | max | min | sum
deriving DecidableEq

/-- `AggregationResult` (765-772); `Integer` is never produced here. -/
inductive AggResult where
  | array (vs : List B64)
  | scalar (v : B64)
deriving DecidableEq

/-- `AggregationResult::zero` (775-782). -/
def AggResult.zero : AggKind → AggResult
  | .none => .array []
  | .max => .scalar negInf
  | .min => .scalar posInf
  | .sum => .scalar 0#64

/-- `AggregationResult::concat` (792-808). -/
def AggResult.concat (o : FloatOps) (k : AggKind) : AggResult → AggResult → Res AggResult
  | .array a, .array b => .ok (.array (a ++ b))
  | .scalar a, .scalar b =>
    match k with
    | .max => .ok (.scalar (o.fmax a b))
    | .min => .ok (.scalar (o.fmin a b))
    | .sum => .ok (.scalar (o.add a b))
    | .none => .err
  | _, _ => .err

/-- `AggregationKind::dispatch` (812-823); `todo!()` panics. -/
def AggKind.dispatch (E : Env) (k : AggKind) (d : Decoder) (bm : Option Bitmap) : Res AggResult :=
  match k with
  | .none => .panic
  | .max => (d.max E bm Option.none).map .scalar
  | .min => (d.min E bm Option.none).map .scalar
  | .sum => (d.sum E bm Option.none).map .scalar

/-- `AggregationKind::dispatch_on_vec` (825-832). -/
def AggKind.dispatchOnVec (o : FloatOps) (k : AggKind) (vs : List B64) : AggResult :=
  match k with
  | .none => .array vs
  | .max => .scalar (vs.foldl o.fmax negInf)
  | .min => .scalar (vs.foldl o.fmin posInf)
  | .sum => .scalar (vs.foldl o.add o.sumInit)

/-- `Aggregation` (835-838). -/
structure Aggregation where
  kind : AggKind
  expr : Expr
deriving DecidableEq

/-- `decoders.iter_mut().map(|d| d.chunk_reader(i)).collect()` (871-874). -/
def openReaders (E : Env) (i : Nat) : List Decoder → Res (List Handle)
  | [] => .ok []
  | d :: ds => do
    let h ← d.chunkReader E i
    let hs ← openReaders E i ds
    .ok (h :: hs)

/-- The loop of `compute` (870-877). -/
def aggLoop (E : Env) (a : Aggregation) (ds : List Decoder) (bm : Option Bitmap) : List Nat → AggResult →
    Res AggResult
  | [], acc => .ok acc
  | i :: is, acc => do
    let hs ← openReaders E i ds
    let (vs, _) ← a.expr.computeChunk E bm hs
    let acc ← AggResult.concat E.o a.kind acc (a.kind.dispatchOnVec E.o vs)
    aggLoop E a ds bm is acc

/-- `decoders[i]`. -/
def decoderAt (ds : List Decoder) (i : Nat) : Res Decoder :=
  match ds[i]? with
  | some d => .ok d
  | none => .panic

/-- `Aggregation::compute` (858-880). -/
def Aggregation.compute (E : Env) (a : Aggregation) (ds : List Decoder) (bm : Option Bitmap) : Res AggResult :=
  match a.expr with
  | .index i => do
    let d ← decoderAt ds i
    a.kind.dispatch E d bm
  | _ => do
    let d ← decoderAt ds 0
    aggLoop E a ds bm (List.range d.info.footer.chunks) (AggResult.zero a.kind)

/-- The first loop of `compute_multiple` (889-899). The flag says whether the result is final. -/
def startAll (E : Env) (ds : List Decoder) (bm : Option Bitmap) : List Aggregation → Res (List (AggResult × Bool))
  | [] => .ok []
  | a :: as => do
    let r ← match a.expr with
      | .index i => do
        let d ← decoderAt ds i
        let r ← a.kind.dispatch E d bm
        .ok (r, true)
      | _ => .ok (AggResult.zero a.kind, false)
    let rs ← startAll E ds bm as
    .ok (r :: rs)

/-- The aggregations of one chunk on shared readers (906-912). -/
def stepAll (E : Env) (bm : Option Bitmap) : List Aggregation → List (AggResult × Bool) → List Handle →
    Res (List (AggResult × Bool))
  | a :: as, (acc, done) :: rs, hs =>
    if done then do
      let rs ← stepAll E bm as rs hs
      .ok ((acc, done) :: rs)
    else do
      let (vs, hs) ← a.expr.computeChunk E bm hs
      let acc ← AggResult.concat E.o a.kind acc (a.kind.dispatchOnVec E.o vs)
      let rs ← stepAll E bm as rs hs
      .ok ((acc, done) :: rs)
  | _, rs, _ => .ok rs

/-- The loop over the chunks (901-913). -/
def multiLoop (E : Env) (as : List Aggregation) (ds : List Decoder) (bm : Option Bitmap) : List Nat →
    List (AggResult × Bool) → Res (List (AggResult × Bool))
  | [], rs => .ok rs
  | i :: is, rs => do
    let hs ← openReaders E i ds
    let rs ← stepAll E bm as rs hs
    multiLoop E as ds bm is rs

/-- `Aggregation::compute_multiple` (882-916). -/
def Aggregation.computeMultiple (E : Env) (as : List Aggregation) (ds : List Decoder) (bm : Option Bitmap) :
    Res (List AggResult) := do
  let rs ← startAll E ds bm as
  let d ← decoderAt ds 0
  let rs ← multiLoop E as ds bm (List.range d.info.footer.chunks) rs
  .ok (rs.map Prod.fst)

end Ebi
