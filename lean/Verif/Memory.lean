import Verif.Sprintz
import Verif.Encoder
import Verif.BuffQuery

/-!
# The `unsafe` blocks

The blocks of `ebi/src` whose safety depends on an index, a length or a success: the pointer loop of
`compressor/sprintz.rs`, the `unwrap_unchecked` of `compressor/buff.rs`, the byte view in
`read_less_or_equal` (`encoder.rs`), the vector loads of `decoder/chunk_reader/buff/filter_{eq,cmp}.rs` and the
raw buffer of `decoder/expr.rs`. Undefined behaviour is the explicit outcome `ub`.

Not here: `transmute` between integers of one size (total), byte views `from_raw_parts(p, size_of_val(s))`
of a slice `s` (the length is that of `s` by construction), and whether the CPU has AVX2.
-/

namespace Ebi.Memory

/-- The outcome of code with raw pointers: `Res` and undefined behaviour. -/
inductive Mem (α : Type) where
  | ok (a : α)
  | err
  | panic
  | ub
deriving DecidableEq

def Mem.bind {α β : Type} : Mem α → (α → Mem β) → Mem β
  | .ok a, f => f a
  | .err, _ => .err
  | .panic, _ => .panic
  | .ub, _ => .ub

instance : Monad Mem where
  pure := .ok
  bind := Mem.bind

/-- Safe code never has undefined behaviour. -/
def Mem.safe {α : Type} : Res α → Mem α
  | .ok a => .ok a
  | .err => .err
  | .panic => .panic

/-! ## `Vec` with its allocation -/

/-- A `Vec`: the allocation (one entry per element of the capacity, `none` if not initialised) and the
length. -/
structure RawVec (α : Type) where
  cells : List (Option α)
  len : Nat
deriving DecidableEq

variable {α : Type}

def RawVec.capacity (v : RawVec α) : Nat := v.cells.length

/-- `Vec::new`. -/
def RawVec.empty : RawVec α := ⟨[], 0⟩

/-- `Vec::clear`. -/
def RawVec.clear (v : RawVec α) : RawVec α := { v with len := 0 }

/-- `Vec::reserve(n)` for elements of 8 bytes (std): if the spare capacity is below `n` a new allocation of
`grow capacity (len + n)` elements gets the old elements. Panics beyond `isize::MAX` bytes. -/
def RawVec.reserve (grow : Nat → Nat → Nat) (v : RawVec α) (n : Nat) : Mem (RawVec α) :=
  if v.capacity - v.len < n then
    if 2 ^ 63 ≤ 8 * grow v.capacity (v.len + n) then .panic
    else .ok ⟨v.cells.take v.len ++ List.replicate (grow v.capacity (v.len + n) - v.len) none, v.len⟩
  else .ok v

/-- `ptr.write(a)` with `ptr` at element `i` of the allocation. -/
def RawVec.ptrWrite (v : RawVec α) (i : Nat) (a : α) : Mem (RawVec α) :=
  if i < v.capacity then .ok { v with cells := v.cells.set i (some a) } else .ub

/-- `Vec::set_len(n)`: requires `n ≤ capacity` and the first `n` elements initialised. -/
def RawVec.setLen (v : RawVec α) (n : Nat) : Mem (RawVec α) :=
  if n ≤ v.capacity ∧ (v.cells.take n).all Option.isSome then .ok { v with len := n } else .ub

/-- The elements. -/
def RawVec.toList (v : RawVec α) : List α := (v.cells.take v.len).filterMap id

/-! ## compressor/sprintz.rs -/

/-- The loop of `zigzag_delta_num_bits` (sprintz.rs:195-207): `ptr` is the index `encoded_ptr` points to. -/
def zigzagLoop : List (BitVec 64) → BitVec 64 → Nat → Nat → RawVec Nat → Mem (RawVec Nat × Nat)
  | [], _, _, acc, v => .ok (v, acc)
  | f :: fs, previous, ptr, acc, v => do
    let zz := (zigzag (f - previous)).toNat
    let v ← v.ptrWrite ptr zz
    zigzagLoop fs f (ptr + 1) (acc ||| zz) v

/-- `zigzag_delta_num_bits` (sprintz.rs:181-216) on the scratch buffer `v`. -/
def zigzagDeltaNumBits (grow : Nat → Nat → Nat) (qs : List (BitVec 64)) (v : RawVec Nat) :
    Mem (RawVec Nat × BitVec 64 × Nat) := do
  let v ← v.reserve grow qs.length
  match qs with
  | [] => .panic
  | q0 :: rest => do
    let (v, acc) ← zigzagLoop (q0 :: rest) q0 0 0 v
    let v ← v.setLen qs.length
    .ok (v, q0, 64 - lz64 acc)

/-- Calls of `compress` on one compressor, with the `reset` before each (sprintz.rs:88-101, 119-124); a call
that panics ends the sequence. -/
def zigzagCalls (grow : Nat → Nat → Nat) : List (List (BitVec 64)) → RawVec Nat → Mem (RawVec Nat)
  | [], v => .ok v
  | qs :: rest, v => do
    let (v, _) ← zigzagDeltaNumBits grow qs v.clear
    zigzagCalls grow rest v

/-! ## compressor/buff.rs -/

/-- `unwrap_unchecked`. -/
def unwrapUnchecked {α : Type} : Option α → Mem α
  | some a => .ok a
  | none => .ub

/-- The header writes of `buff_simd256_encode` (buff.rs:256-273). -/
def buffHeader (base : BitVec 64) (n bits F : Nat) : Mem BitPack.Pack := do
  let p ← unwrapUnchecked (BitPack.Pack.new.write (base.toNat % 2 ^ 32) 32)
  let p ← unwrapUnchecked (p.write (base.toNat / 2 ^ 32) 32)
  let p ← unwrapUnchecked (p.write (n % 2 ^ 32) 32)
  let p ← unwrapUnchecked (p.write bits 32)
  unwrapUnchecked (p.write F 32)

/-! ## encoder.rs -/

/-- `read_less_or_equal` (encoder.rs:272-298): the `from_raw_parts_mut(ptr, n_bytes)` over the buffer of `f64`
requires `n_bytes` to lie in the allocation and not to exceed `isize::MAX`. The rest is safe code. -/
def readLessOrEqual (src : Source) (nBytes : Nat) : Mem (List B64 × Source) :=
  if 2 ^ 63 ≤ bufferLen nBytes * 8 then .panic
  else if nBytes ≤ bufferLen nBytes * 8 ∧ nBytes < 2 ^ 63 then
    .safe ((readLoop nBytes nBytes [] src).map fun p => (toF64s p.1, p.2))
  else .ub

/-- The input part of `ChunkWriter::write` (encoder.rs:320-369). -/
def readChunk (opt : ChunkOption) (src : Source) : Mem (List B64 × Source) :=
  match opt.bytesPerChunk with
  | some n => readLessOrEqual src n
  | none => .safe ((readToEnd src).map fun p => (toF64s p.1, p.2))

/-! ## decoder/chunk_reader/buff/filter_eq.rs, filter_cmp.rs -/

/-- `_mm256_lddqu_si256` at byte `i` of the slice. -/
def load256 (x : List Byte) (i : Nat) : Mem (List Byte) :=
  if i + 32 ≤ x.length then .ok ((x.drop i).take 32) else .ub

/-- The words loaded by `x.chunks_exact(32).map(..)` (filter_eq.rs:232-235, filter_cmp.rs:505-508), `k` left,
the next one at byte `i`. -/
def loadWords (x : List Byte) : Nat → Nat → Mem (List (List Byte))
  | 0, _ => .ok []
  | k + 1, i => do
    let w ← load256 x i
    let ws ← loadWords x k (i + 32)
    .ok (w :: ws)

/-- `equal_simd` (filter_eq.rs:216-246). -/
def equalSimd (x : List Byte) (pred : Byte) (off : Nat) : Mem Bitmap :=
  if x = [] then .ok []
  else do
    let ws ← loadWords x (x.length / 32) 0
    .safe (Buff.fromLsb0 off (Buff.maskBytes (ws.map fun w => Buff.eqMask w (Buff.flip pred))))

/-- `comp_simd` (filter_cmp.rs:489-542). -/
def compSimd (greater : Bool) (x : List Byte) (pred : Byte) (qualified : Bitmap) (off : Nat) :
    Mem (Bitmap × Bitmap) := do
  let ws ← loadWords x (x.length / 32) 0
  let toCheck := ws.map fun w => Buff.eqMask w (Buff.flip pred)
  let qual := ws.map fun w =>
    if greater then Buff.gtMask w (Buff.flip pred)
    else Buff.ltMask w (Buff.flip pred) &&& ~~~(Buff.eqMask w (Buff.flip pred))
  let q ← .safe (Buff.fromLsb0 off (Buff.maskBytes qual))
  let t ← .safe (Buff.fromLsb0 off (Buff.maskBytes toCheck))
  .ok (t, Bitmap.union qualified q)

/-! ## decoder/expr.rs -/

/-- A `Cursor` over the byte view of the raw buffer: one entry per byte, `none` if not initialised. -/
structure RawCursor where
  bytes : List (Option Byte)
  pos : Nat
deriving DecidableEq

/-- `Write::write_all` on `Cursor<&mut [u8]>` (std): copies what fits; if something is left the next `write`
returns 0 and `write_all` fails. -/
def RawCursor.writeAll (c : RawCursor) (bs : List Byte) : Bool × RawCursor :=
  let k := min bs.length (c.bytes.length - c.pos)
  (decide (k = bs.length),
    ⟨c.bytes.take c.pos ++ (bs.take k).map some ++ c.bytes.drop (c.pos + k), c.pos + k⟩)

/-- What becomes of an allocation. -/
inductive Owner where
  | returned | leaked
deriving DecidableEq

/-- The writes of `materialize`, up to the first failure; `false`: `materialize` returned an error. After the
writes it may fail for another reason (`fails`). -/
def writeSeq : List (List Byte) → RawCursor → Bool × RawCursor
  | [], c => (true, c)
  | bs :: rest, c =>
    match c.writeAll bs with
    | (true, c) => writeSeq rest c
    | (false, c) => (false, c)

/-- `Vec::from_raw_parts(ptr, len, capacity)` on the `f64` allocation whose bytes are `bytes`: the length must
not exceed the capacity and the elements must be initialised. -/
def fromRawParts (bytes : List (Option Byte)) (len capacity : Nat) : Mem (List B64) :=
  if len ≤ capacity ∧ 8 * len ≤ bytes.length ∧ (bytes.take (8 * len)).all Option.isSome then
    .ok (toF64s ((bytes.take (8 * len)).filterMap id))
  else .ub

/-- The case `Expr::Index` of `compute_chunk` (expr.rs:94-121) for a chunk of `n` records. `with_capacity` gives
at least `n` elements (`n + extra`) or panics beyond `isize::MAX` bytes; `from_raw_parts_mut(ptr, n * 8)` must lie
in the allocation. `writes` are the bytes `materialize` writes, `fails` whether it fails afterwards: then `?`
returns and nobody owns the buffer. -/
def exprIndex (n extra : Nat) (writes : List (List Byte)) (fails : Bool) : Mem (List B64) × Owner :=
  if 2 ^ 63 ≤ 8 * (n + extra) then (.panic, .returned)
  else if 8 * n % 2 ^ 64 ≤ 8 * (n + extra) then
    let c : RawCursor := ⟨List.replicate (8 * n % 2 ^ 64) none, 0⟩
    match writeSeq writes c with
    | (true, c) =>
      if fails then (.err, .leaked)
      else (fromRawParts (c.bytes ++ List.replicate (8 * (n + extra) - c.bytes.length) none) (c.pos / 8) (n + extra), .returned)
    | (false, _) => (.err, .leaked)
  else (.ub, .returned)

end Ebi.Memory
