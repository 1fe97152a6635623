import Verif.Memory
import Verif.External

/-!
# ALP: framing

`alp-binding/include/compressor_specialized.hpp` and `alp-binding/src/lib.rs`: how `ebi` cuts a chunk into row
groups and vectors of 1024 values, what it stores for each, and how it reads that back. The numeric kernels
(`AlpEncode`, `AlpRD`, `ffor`, …) are in a git submodule that is not part of the repository; they are the
parameter `Lib`. From the submodule also come a few facts used here: `get_rowgroup_count` and
`get_complete_vector_count` are `⌈n / ROWGROUP_SIZE⌉` and `⌊n / 1024⌋` (the former computed in doubles, so for
`n < 2^53`), `get_size_after_bitpacking w` is `128 w`, the fields `exp`, `fac` and the bit widths have one
byte, `exceptions_count` two, `for_base` eight, dictionary entries, RD exceptions and positions two,
`MemStorer::store` appends and `MemReader::read` copies from the current position without any check.
-/

namespace Ebi.Alp

open Ebi Memory

/-- `config::VECTOR_SIZE` (alp-binding/src/lib.rs:21). -/
def vectorSize : Nat := 1024

/-- What `compress_alp_vector` leaves in the compressor for one vector (hpp:63-69): `packed` are the bytes of
`alp_encoded_array` that count. -/
structure AlpVec where
  exp : Nat
  fac : Nat
  base : B64
  width : Nat
  packed : List Byte
  exceptions : List B64
  positions : List Nat
deriving DecidableEq

/-- What `compress_rd_vector` leaves (hpp:71-76). -/
structure RdVec where
  left : List Byte
  right : List Byte
  exceptions : List Nat
  positions : List Nat
deriving DecidableEq

/-- The row group parameters of ALP-RD (hpp:201-206). -/
structure RdMeta where
  rightWidth : Nat
  leftWidth : Nat
  dict : List Nat
deriving DecidableEq

/-- `stt.scheme`, with the parameters of ALP-RD. -/
inductive Group where
  | alp
  | rd (m : RdMeta)
deriving DecidableEq

/-- The kernels. `σ` is the rest of the state they keep in `stt`. `groupVectors` is `ROWGROUP_SIZE / 1024`. -/
structure Lib where
  σ : Type
  groupVectors : Nat
  alpCode : Nat
  rdCode : Nat
  start : σ
  /-- `AlpEncode::init` and, if it chooses ALP-RD, `AlpRD::init` (hpp:87-92) -/
  init : σ → List B64 → Nat → Group × σ
  /-- `fill_incomplete_alp_vector`, `fill_incomplete_alprd_vector` (hpp:114-119) -/
  fill : σ → Group → List B64 → List B64
  encAlp : σ → List B64 → AlpVec × σ
  encRd : σ → RdMeta → List B64 → RdVec × σ
  decAlp : AlpVec → List B64
  decRd : RdMeta → RdVec → List B64

/-! ## Compressor -/

/-- `store_alp_vector` (hpp:175-186). -/
def storeAlp (v : AlpVec) : List Byte :=
  leBytes 1 v.exp ++ leBytes 1 v.fac ++ leBytes 2 v.exceptions.length ++ leBytes 8 v.base.toNat ++
    leBytes 1 v.width ++ v.packed ++
    (if 0 < v.exceptions.length then v.exceptions.flatMap f64Bytes ++ v.positions.flatMap (leBytes 2) else [])

/-- `store_rd_vector` (hpp:165-173). -/
def storeRd (v : RdVec) : List Byte :=
  leBytes 2 v.exceptions.length ++ v.left ++ v.right ++
    (if 0 < v.exceptions.length then v.exceptions.flatMap (leBytes 2) ++ v.positions.flatMap (leBytes 2) else [])

/-- `compress_vector` and `store_vector` (hpp:55-61, 193-199). -/
def compressVector (L : Lib) (g : Group) (s : L.σ) (vs : List B64) : List Byte × L.σ :=
  match g with
  | .alp => ((storeAlp (L.encAlp s vs).1), (L.encAlp s vs).2)
  | .rd m => ((storeRd (L.encRd s m vs).1), (L.encRd s m vs).2)

/-- `store_rowgroup_metadata` with `store_schema`, `store_rd_metadata` (hpp:188-191, 201-211). -/
def storeGroup (L : Lib) : Group → List Byte
  | .alp => leBytes 1 L.alpCode
  | .rd m => leBytes 1 L.rdCode ++ leBytes 1 m.rightWidth ++ leBytes 1 m.leftWidth ++ leBytes 1 m.dict.length ++
      m.dict.flatMap (leBytes 2)

/-- The vector loop of `compress` (hpp:97-107). Reading `values` beyond the end is undefined. -/
def compressVectors (L : Lib) (values : List B64) (g : Group) :
    Nat → L.σ → Nat → List Byte → Mem (L.σ × Nat × List Byte)
  | 0, s, idx, out => .ok (s, idx, out)
  | k + 1, s, idx, out =>
    if values.length < idx + vectorSize then .ub
    else
      let r := compressVector L g s ((values.drop idx).take vectorSize)
      compressVectors L values g k r.2 (idx + vectorSize) (out ++ r.1)

/-- The row group loop of `compress` (hpp:83-108). `left_to_compress` is `values_count - current_idx`
throughout. -/
def compressGroups (L : Lib) (values : List B64) :
    Nat → Group → L.σ → Nat → List Byte → Mem (Group × L.σ × Nat × List Byte)
  | 0, g, s, idx, out => .ok (g, s, idx, out)
  | k + 1, _, s, idx, out => do
    let r := L.init s values idx
    let nv := min (L.groupVectors * vectorSize) (values.length - idx) / vectorSize
    let (s, idx, out) ← compressVectors L values r.1 nv r.2 idx (out ++ storeGroup L r.1)
    compressGroups L values k r.1 s idx out

/-- `get_rowgroup_count`. -/
def groupCount (L : Lib) (n : Nat) : Nat :=
  (n + (L.groupVectors * vectorSize - 1)) / (L.groupVectors * vectorSize)

/-- `compress` (hpp:78-123). Before the first row group the scheme is not ALP-RD. -/
def compress (L : Lib) (values : List B64) : Mem (List Byte) := do
  let (g, s, idx, out) ← compressGroups L values (groupCount L values.length) .alp L.start 0 []
  if idx < values.length then
    .ok (out ++ (compressVector L g s (L.fill s g (values.drop idx))).1)
  else .ok out

/-- `worst_case_compression_size_double` (alp-binding/src/lib.rs:23-38), without wrap-around. -/
def worstCase (n : Nat) : Nat :=
  let nv := (n + (vectorSize - 1)) / vectorSize
  let size := nv * vectorSize * 8 + (nv * vectorSize * 8 + 2 + nv * 2)
  if n < vectorSize then size * 2 else size

/-- `compress_double` (alp-binding/src/lib.rs:48-70) into a buffer of `worstCase n` bytes. Since the stores
append, one of them passes the end exactly if there is too much in total. -/
def compressDouble (L : Lib) (values : List B64) : Mem (List Byte) := do
  let out ← compress L values
  if out.length ≤ worstCase values.length then .ok out else .ub

/-! ## Decompressor -/

/-- `MemReader::read` of `k` bytes; beyond the end of the chunk undefined. -/
def read (k : Nat) (bs : List Byte) : Mem (List Byte × List Byte) :=
  if k ≤ bs.length then .ok (bs.take k, bs.drop k) else .ub

/-- `k` numbers of 2 bytes. -/
def split16 : Nat → List Byte → List Nat
  | 0, _ => []
  | k + 1, bs => leNat (bs.take 2) :: split16 k (bs.drop 2)

/-- A `u16`. -/
def read16s (k : Nat) (bs : List Byte) : Mem (List Nat × List Byte) := do
  let (b, bs) ← read (2 * k) bs
  .ok (split16 k b, bs)

/-- `load_alp_vector` (hpp:269-285). The arrays hold 1024 entries; a larger count overruns them. -/
def loadAlp (bs : List Byte) : Mem (AlpVec × List Byte) := do
  let (exp, bs) ← read 1 bs
  let (fac, bs) ← read 1 bs
  let (cnt, bs) ← read 2 bs
  let (base, bs) ← read 8 bs
  let (width, bs) ← read 1 bs
  if 64 < leNat width then .ub
  else
    let (packed, bs) ← if 0 < leNat width then read (128 * leNat width) bs else .ok ([], bs)
    if vectorSize < leNat cnt then .ub
    else if 0 < leNat cnt then do
      let (ex, bs) ← read (8 * leNat cnt) bs
      let (pos, bs) ← read16s (leNat cnt) bs
      .ok (⟨leNat exp, leNat fac, f64Of base, leNat width, packed, toF64s ex, pos⟩, bs)
    else .ok (⟨leNat exp, leNat fac, f64Of base, leNat width, packed, [], []⟩, bs)

/-- `load_alprd_vector` (hpp:259-267). `left_parts_encoded` has 2048 bytes, `right_parts_encoded` 8192. -/
def loadRd (m : RdMeta) (bs : List Byte) : Mem (RdVec × List Byte) := do
  let (cnt, bs) ← read 2 bs
  if 16 < m.leftWidth ∨ 64 < m.rightWidth ∨ vectorSize < leNat cnt then .ub
  else do
    let (left, bs) ← read (128 * m.leftWidth) bs
    let (right, bs) ← read (128 * m.rightWidth) bs
    if 0 < leNat cnt then do
      let (ex, bs) ← read16s (leNat cnt) bs
      let (pos, bs) ← read16s (leNat cnt) bs
      .ok (⟨left, right, ex, pos⟩, bs)
    else .ok (⟨left, right, [], []⟩, bs)

/-- `load_rowgroup_metadata`, `load_rd_metadata` (hpp:247-257, 313-321). The dictionary's byte count is a
`uint8_t`; it has room for 8 entries. -/
def loadGroup (L : Lib) (bs : List Byte) : Mem (Group × List Byte) := do
  let (code, bs) ← read 1 bs
  if leNat code = L.rdCode then do
    let (rw, bs) ← read 1 bs
    let (lw, bs) ← read 1 bs
    let (size, bs) ← read 1 bs
    if 16 < 2 * leNat size % 256 then .ub
    else do
      let (dict, bs) ← read (2 * leNat size % 256) bs
      .ok (.rd ⟨leNat rw, leNat lw, split16 (leNat size) dict⟩, bs)
  else .ok (.alp, bs)

/-- `load_vector` and the kernels of `decompress_vector` (hpp:287-311). -/
def decodeVector (L : Lib) (g : Group) (bs : List Byte) : Mem (List B64 × List Byte) :=
  match g with
  | .alp => do
    let (v, bs) ← loadAlp bs
    .ok (L.decAlp v, bs)
  | .rd m => do
    let (v, bs) ← loadRd m bs
    .ok (L.decRd m v, bs)

/-- Storing one decoded vector at `out + out_offset` in a buffer of `cap` values; always a whole vector. -/
def place (cap : Nat) (out : List B64) (off : Nat) (vs : List B64) : Mem (List B64) :=
  if cap < off + vectorSize then .ub else .ok (out.take off ++ vs ++ out.drop (off + vectorSize))

/-- The vector loop of `decompress` (hpp:336-345). -/
def decompressVectors (L : Lib) (g : Group) (cap : Nat) :
    Nat → Nat → Nat → List B64 → List Byte → Mem (Nat × Nat × List B64 × List Byte)
  | 0, left, off, out, bs => .ok (left, off, out, bs)
  | k + 1, left, off, out, bs => do
    let next := min vectorSize left
    let (vs, bs) ← decodeVector L g bs
    let out ← place cap out off vs
    decompressVectors L g cap k (left - next) (off + next) out bs

/-- The row group loop of `decompress` (hpp:327-346). -/
def decompressGroups (L : Lib) (cap : Nat) :
    Nat → Group → Nat → Nat → List B64 → List Byte → Mem (Group × Nat × Nat × List B64 × List Byte)
  | 0, g, left, off, out, bs => .ok (g, left, off, out, bs)
  | k + 1, _, left, off, out, bs => do
    let (g, bs) ← loadGroup L bs
    let nv := min (L.groupVectors * vectorSize) left / vectorSize
    let (left, off, out, bs) ← decompressVectors L g cap nv left off out bs
    decompressGroups L cap k g left off out bs

/-- `decompress` (hpp:323-351): the values written to `out`, and the unread rest of the input. -/
def decompress (L : Lib) (cap n : Nat) (bs : List Byte) : Mem (List B64 × List Byte) := do
  let (g, left, off, out, bs) ← decompressGroups L cap (groupCount L n) .alp n 0 [] bs
  if 0 < left then do
    let (vs, bs) ← decodeVector L g bs
    let out ← place cap out off vs
    .ok (out, bs)
  else .ok (out, bs)

/-- `decompress_double` (alp-binding/src/lib.rs:83-100): the buffer has room for the next multiple of 1024
(`extra` more if the allocation is larger); `set_len(n)` needs `n` initialised values. The unread rest of the
input is kept for the statement only. -/
def decompressDouble (L : Lib) (extra n : Nat) (bs : List Byte) : Mem (List B64 × List Byte) := do
  let cap := (n + (vectorSize - 1)) / vectorSize * vectorSize + extra
  let (out, rest) ← decompress L cap n bs
  if n ≤ out.length then .ok (out.take n, rest) else .ub

end Ebi.Alp
