import Verif.Buff
import Verif.Query
import Verif.Sprintz

/-!
# BUFF in-situ queries

`ebi/src/decoder/chunk_reader/buff.rs` and `buff/{filter,filter_eq,filter_cmp,min_max,sum}.rs`.

Record indices are `u32`. Sums `offset + index` are kept unbounded here: they stay below `2^32` whenever
the chunk lies inside the first `2^32` records, which the theorems assume. Differences `x - offset` cannot
underflow, the bitmask having been restricted to the chunk first. Products `index * bits` in `u32` are
reduced modulo `2^32`.
-/

namespace Ebi.Buff

open Ebi BitPack

/-- `.unwrap()` on a `Result`. -/
def unwrap {α : Type} : Res α → Res α
  | .err => .panic
  | r => r

/-! ## Splitting a column for SIMD, and the SIMD comparisons -/

/-- `split_for_simd_processing` (buff/filter.rs:3-37). -/
def splitSimd (chunk : List Byte) (off : Nat) : List Byte × List Byte × List Byte :=
  let total := chunk.length
  let alignOffset := (off + 7) / 8 * 8
  let initialLen := alignOffset - off
  let initial := chunk.take (min initialLen total)
  let simdLen := if initialLen < total then (total - initialLen) / 32 * 32 else 0
  let simd := if initialLen < total then (chunk.drop initialLen).take simdLen else []
  let remainingStart := initialLen + simdLen
  let rest := if remainingStart < total then chunk.drop remainingStart else []
  (initial, simd, rest)

/-- `_mm256_movemask_epi8` of 32 lanes: lane `i` gives bit `i`. -/
def movemask (lanes : List Bool) : BitVec 32 :=
  BitVec.ofNat 32 (lanes.foldr (fun b n => b.toNat + 2 * n) 0)

/-- `chunks_exact(32)`, `k = len / 32` words. -/
def words : Nat → List Byte → List (List Byte)
  | 0, _ => []
  | k + 1, xs => xs.take 32 :: words k (xs.drop 32)

/-- Set bits, as indices from `off`. -/
def trues : Nat → List Bool → Bitmap
  | _, [] => []
  | off, b :: bs => if b then off :: trues (off + 1) bs else trues (off + 1) bs

/-- The bits of a byte, least significant first. -/
def byteLsb (b : Byte) : List Bool := (List.range 8).map b.getLsbD

/-- `RoaringBitmap::from_lsb0_bytes` (crate `roaring`): bit `j` of byte `i` is member `off + 8i + j`; panics
on an offset that is not a multiple of 8 or a range past `u32`. -/
def fromLsb0 (off : Nat) (bytes : List Byte) : Res Bitmap :=
  if off % 8 ≠ 0 ∨ 2 ^ 32 < off + 8 * bytes.length then .panic
  else .ok (trues off (bytes.flatMap byteLsb))

/-- The masks seen as bytes in memory. -/
def maskBytes (masks : List (BitVec 32)) : List Byte := masks.flatMap (fun m => leBytes 4 m.toNat)

/-- `_mm256_cmpeq_epi8(word, pred_word)` and movemask. -/
def eqMask (word : List Byte) (pw : Byte) : BitVec 32 := movemask (word.map (fun x => x == pw))

/-- `_mm256_cmpgt_epi8` (signed) and movemask: `word > pred_word` and `pred_word > word`. -/
def gtMask (word : List Byte) (pw : Byte) : BitVec 32 := movemask (word.map (fun x => pw.slt x))
@[inherit_doc gtMask] def ltMask (word : List Byte) (pw : Byte) : BitVec 32 := movemask (word.map (fun x => x.slt pw))

/-- `equal_simd` (filter_eq.rs:216-246). -/
def equalSimd (x : List Byte) (pred : Byte) (off : Nat) : Res Bitmap :=
  if x = [] then .ok []
  else fromLsb0 off (maskBytes ((words (x.length / 32) x).map (fun w => eqMask w (flip pred))))

/-- `comp_simd` (filter_cmp.rs:489-542): `(to_check, qualified | new)`. -/
def compSimd (greater : Bool) (x : List Byte) (pred : Byte) (qualified : Bitmap) (off : Nat) :
    Res (Bitmap × Bitmap) :=
  let ws := words (x.length / 32) x
  let toCheck := ws.map (fun w => eqMask w (flip pred))
  let qual := ws.map (fun w =>
    if greater then gtMask w (flip pred)
    else ltMask w (flip pred) &&& ~~~(eqMask w (flip pred)))
  match fromLsb0 off (maskBytes qual) with
  | .ok q =>
    match fromLsb0 off (maskBytes toCheck) with
    | .ok t => .ok (t, Bitmap.union qualified q)
    | .err => .err
    | .panic => .panic
  | .err => .err
  | .panic => .panic

/-! ## Loops over a column -/

/-- `for (i, x) in chunk.iter().enumerate()` with the byte flipped back. -/
def allLoop {A : Type} (f : A → Nat → Byte → A) : List Byte → Nat → A → A
  | [], _, a => a
  | x :: xs, i, a => allLoop f xs (i + 1) (f a i (flip x))

/-- `for x in bitmap.iter()` reading `chunk[x - off]`. -/
def idxLoop {A : Type} (chunk : List Byte) (off : Nat) (f : A → Nat → Byte → A) : List Nat → A → Res A
  | [], a => .ok a
  | x :: xs, a =>
    match chunk[x - off]? with
    | none => .panic
    | some b => idxLoop chunk off f xs (f a x (flip b))

/-- `for record_index in bitmask.iter().map(|x| x - logical_offset)` with `skip_n_byte` and `read_byte`
(filter_eq.rs:126-138); the second component is `expected_record_index_if_sequential`. -/
def byteLoop {A : Type} (buff : List Byte) (off : Nat) (f : A → Nat → Byte → A) :
    List Nat → Nat → Pos → A → Res (A × Nat × Pos)
  | [], e, p, a => .ok (a, e, p)
  | x :: xs, e, p, a =>
    let i := x - off
    match readByte buff (skipNByte p (i - e)) with
    | .ok (b, p) => byteLoop buff off f xs (i + 1) p (f a (off + i) (flip b))
    | .err => .err
    | .panic => .panic

/-- The same on the last, sub-byte, column with `skip` and `read_bits` (filter_eq.rs:169-181,
filter_cmp.rs:393-419, min_max.rs:77-104, sum.rs:36-46); `mul` is the `u32` or `usize` product. -/
def tailLoop {A : Type} (buff : List Byte) (off r : Nat) (mul : Nat → Nat → Nat) (f : A → Nat → Nat → A) :
    List Nat → Nat → Pos → A → Res (A × Nat × Pos)
  | [], e, p, a => .ok (a, e, p)
  | x :: xs, e, p, a =>
    let i := x - off
    match skip buff p (mul (i - e) r) with
    | none => .err
    | some p =>
      match readBits buff p r with
      | .ok (s, p) => tailLoop buff off r mul f xs (i + 1) p (f a (off + i) s)
      | .err => .err
      | .panic => .panic

/-- `for i in 0..number_of_records { read_bits }`, `k` records left, next record `x`. -/
def tailAll {A : Type} (buff : List Byte) (r : Nat) (f : A → Nat → Nat → A) :
    Nat → Nat → Pos → A → Res (A × Pos)
  | 0, _, p, a => .ok (a, p)
  | k + 1, x, p, a =>
    match readBits buff p r with
    | .ok (s, p) => tailAll buff r f k (x + 1) p (f a x s)
    | .err => .err
    | .panic => .panic

/-- `u32` multiplication. -/
def mulU32 (a b : Nat) : Nat := a * b % 2 ^ 32

/-- `all()`: `insert_range(logical_offset..(number_of_records + logical_offset))`. -/
def allRecords (off n : Nat) : Bitmap := List.range' off n

/-! ## Equality filter -/

/-- Body of the byte loops (filter_eq.rs:25-28, 132-135). -/
def eqStep (pred : Byte) (a : Bitmap) (x : Nat) (b : Byte) : Bitmap :=
  if b = pred then Bitmap.insert x a else a

/-- `buff_simd256_equal_filter_subcolumn_without_bitmask` (filter_eq.rs:36-71), x86-64 branch. -/
def eqColumnAll (chunk : List Byte) (pred : Byte) (off : Nat) : Res Bitmap :=
  let (initial, simd, rest) := splitSimd chunk off
  let r0 := allLoop (eqStep pred) initial off []
  match equalSimd simd pred (off + initial.length) with
  | .ok r1 =>
    let r2 := allLoop (eqStep pred) rest (off + initial.length + simd.length) []
    .ok (Bitmap.union (Bitmap.union r0 r1) r2)
  | .err => .err
  | .panic => .panic

/-- One byte column (filter_eq.rs:123-153). -/
def eqColumn (buff : List Byte) (off n : Nat) (pb : Byte) (p : Pos) : Option Bitmap → Res (Bitmap × Pos)
  | some bm =>
    match byteLoop buff off (eqStep pb) bm 0 p [] with
    | .ok (next, e, p) => .ok (next, skipNByte p (n - e))
    | .err => .err
    | .panic => .panic
  | none =>
    match readNByte buff p n with
    | .ok (chunk, p) => (eqColumnAll chunk pb off).map (fun b => (b, p))
    | .err => .err
    | .panic => .panic

/-- `while remaining_bits_length >= 8` (filter_eq.rs:120-160), `k` byte columns left. The `Bool` says
that the function returned early. -/
def eqColumns (buff : List Byte) (off n r P : Nat) : Nat → Pos → Option Bitmap →
    Res (Bool × Option Bitmap × Pos)
  | 0, p, res => .ok (false, res, p)
  | k + 1, p, res =>
    match eqColumn buff off n (BitVec.ofNat 8 (P / 2 ^ (8 * k + r))) p res with
    | .ok (next, p) =>
      if next = [] then .ok (true, some next, p)
      else eqColumns buff off n r P k p (some next)
    | .err => .err
    | .panic => .panic

/-- Body of the last-column loops (filter_eq.rs:174-178, 190-193). -/
def eqTailStep (pred : Nat) (a : Bitmap) (x s : Nat) : Bitmap := if s = pred then Bitmap.insert x a else a

/-- `buff_simd256_equal_filter` (filter_eq.rs:74-201). `pred` is the `f64` constant, converted with the
chunk's fraction width. Without a bitmask the last column compares with the predicate's low byte
unmasked (191). -/
def equalFilter (buff : List Byte) (pred : B64) (bm : Option Bitmap) (off : Nat) : Res Bitmap :=
  match readHeader buff with
  | .ok (h, p) =>
    let fp := intoFixed pred h.F
    if fp.slt h.base then .ok []
    else if h.bits = 0 then .ok (if fp = h.base then allRecords off h.n else [])
    else
      let P := (fp - h.base).toNat
      match eqColumns buff off h.n (h.bits % 8) P (h.bits / 8) p bm with
      | .ok (true, res, _) => .ok (res.getD [])
      | .ok (false, res, p) =>
        if 0 < h.bits % 8 then
          match res with
          | some b =>
            match unwrap (tailLoop buff off (h.bits % 8) mulU32 (eqTailStep (P % 2 ^ (h.bits % 8) % 256)) b 0 p []) with
            | .ok (next, e, p) =>
              match skip buff p (mulU32 (h.n - e) (h.bits % 8)) with
              | none => .panic
              | some _ => .ok next
            | .err => .err
            | .panic => .panic
          | none => (unwrap (tailAll buff (h.bits % 8) (eqTailStep (P % 256)) h.n off p [])).map Prod.fst
        else .ok (res.getD (allRecords off h.n))
      | .err => .err
      | .panic => .panic
  | .err => .err
  | .panic => .panic

/-! ## Comparison filter -/

/-- Body of the scalar loops (filter_cmp.rs:27-48, 201-219): `(to_check, qualified)`. -/
def cmpStep (greater : Bool) (pred : Byte) (a : Bitmap × Bitmap) (x : Nat) (b : Byte) : Bitmap × Bitmap :=
  if pred.toNat < b.toNat then (a.1, if greater then Bitmap.insert x a.2 else a.2)
  else if b.toNat = pred.toNat then (Bitmap.insert x a.1, a.2)
  else (a.1, if greater then a.2 else Bitmap.insert x a.2)

/-- `…_without_bitmask_simd` (filter_cmp.rs:54-88). -/
def cmpAllSimd (greater : Bool) (simd : List Byte) (pred : Byte) (a : Bitmap × Bitmap) (off : Nat) :
    Res (Bitmap × Bitmap) :=
  if simd = [] then .ok a
  else
    match compSimd greater simd pred a.2 off with
    | .ok (t, q) => .ok (Bitmap.union a.1 t, q)
    | .err => .err
    | .panic => .panic

/-- `…_without_bitmask` (filter_cmp.rs:92-141), x86-64 branch. -/
def cmpColumnAll (greater : Bool) (chunk : List Byte) (pred : Byte) (q : Bitmap) (off : Nat) :
    Res (Bitmap × Bitmap) :=
  let (initial, simd, rest) := splitSimd chunk off
  match cmpAllSimd greater simd pred (allLoop (cmpStep greater pred) initial off ([], q))
    (off + initial.length) with
  | .ok a => .ok (allLoop (cmpStep greater pred) rest (off + initial.length + simd.length) a)
  | .err => .err
  | .panic => .panic

/-- `…_with_bitmask_simd` (filter_cmp.rs:145-186). -/
def cmpMaskSimd (greater : Bool) (simd : List Byte) (pred : Byte) (tc q : Bitmap) (off : Nat) :
    Res (Bitmap × Bitmap) :=
  if simd = [] then .ok ([], q)
  else
    match compSimd greater simd pred [] off with
    | .ok (t, tq) => .ok (Bitmap.inter (Bitmap.union [] t) tc, Bitmap.union q (Bitmap.inter tq tc))
    | .err => .err
    | .panic => .panic

/-- `…_with_bitmask` (filter_cmp.rs:226-296), x86-64 branch. `useSimd` is the outcome of the density test
`to_check.len() as f64 / number_of_records as f64 > 0.06` (an oracle: any outcome). -/
def cmpColumnMask (useSimd : Bool) (greater : Bool) (chunk : List Byte) (pred : Byte) (tc q : Bitmap)
    (off : Nat) : Res (Bitmap × Bitmap) :=
  if useSimd then
    let (initial, simd, rest) := splitSimd chunk off
    match idxLoop initial off (cmpStep greater pred)
      (tc.takeWhile (fun x => decide (x < off + initial.length))) ([], q) with
    | .ok (n0, q) =>
      match cmpMaskSimd greater simd pred tc q (off + initial.length) with
      | .ok (n1, q) =>
        let ro := off + initial.length + simd.length
        match idxLoop rest ro (cmpStep greater pred) (tc.dropWhile (fun x => decide (x < ro))) ([], q) with
        | .ok (n2, q) => .ok (Bitmap.union (Bitmap.union n0 n1) n2, q)
        | .err => .err
        | .panic => .panic
      | .err => .err
      | .panic => .panic
    | .err => .err
    | .panic => .panic
  else idxLoop chunk off (cmpStep greater pred) tc ([], q)

/-- One byte column (filter_cmp.rs:362-378). -/
def cmpColumn (useSimd : Nat → Nat → Bool) (greater : Bool) (chunk : List Byte) (pb : Byte) (n : Nat)
    (q : Bitmap) (off : Nat) : Option Bitmap → Res (Bitmap × Bitmap)
  | some t => cmpColumnMask (useSimd t.length n) greater chunk pb t q off
  | none => cmpColumnAll greater chunk pb q off

/-- `while remaining_bits_length >= 8` (filter_cmp.rs:357-385). -/
def cmpColumns (useSimd : Nat → Nat → Bool) (greater : Bool) (buff : List Byte) (off n r P : Nat) :
    Nat → Pos → Option Bitmap → Bitmap → Res (Bool × Option Bitmap × Bitmap × Pos)
  | 0, p, tc, q => .ok (false, tc, q, p)
  | k + 1, p, tc, q =>
    match readNByte buff p n with
    | .ok (chunk, p) =>
      match cmpColumn useSimd greater chunk (BitVec.ofNat 8 (P / 2 ^ (8 * k + r))) n q off tc with
      | .ok (next, q) =>
        if next = [] then .ok (true, some next, q, p)
        else cmpColumns useSimd greater buff off n r P k p (some next) q
      | .err => .err
      | .panic => .panic
    | .err => .err
    | .panic => .panic

/-- Body of the last-column loops (filter_cmp.rs:400-416, 426-442). -/
def cmpTailStep (greater inclusive : Bool) (pred : Nat) (q : Bitmap) (x s : Nat) : Bitmap :=
  if pred < s then (if greater then Bitmap.insert x q else q)
  else if s = pred then (if inclusive then Bitmap.insert x q else q)
  else (if greater then q else Bitmap.insert x q)

/-- `buff_simd256_cmp_filter` (filter_cmp.rs:299-451). -/
def cmpFilter (useSimd : Nat → Nat → Bool) (greater inclusive : Bool) (buff : List Byte) (pred : B64)
    (bm : Option Bitmap) (off : Nat) : Res Bitmap :=
  match readHeader buff with
  | .ok (h, p) =>
    let fp := intoFixed pred h.F
    if fp.slt h.base then .ok (if greater then allRecords off h.n else [])
    else if h.bits = 0 then
      .ok (if (match greater, inclusive with
        | true, true => fp.sle h.base
        | true, false => fp.slt h.base
        | false, true => h.base.sle fp
        | false, false => h.base.slt fp) then allRecords off h.n else [])
    else
      let P := (fp - h.base).toNat
      if h.bits < bitsLength (fp - h.base) then .ok (if greater then [] else allRecords off h.n)
      else
        match cmpColumns useSimd greater buff off h.n (h.bits % 8) P (h.bits / 8) p bm [] with
        | .ok (true, _, q, _) => .ok q
        | .ok (false, tc, q, p) =>
          if 0 < h.bits % 8 then
            let f := cmpTailStep greater inclusive (P % 2 ^ (h.bits % 8) % 256)
            match tc with
            | some b =>
              match unwrap (tailLoop buff off (h.bits % 8) mulU32 f b 0 p q) with
              | .ok (q, e, p) =>
                match skip buff p (mulU32 (h.n - e) (h.bits % 8)) with
                | none => .panic
                | some _ => .ok q
              | .err => .err
              | .panic => .panic
            | none => (unwrap (tailAll buff (h.bits % 8) f h.n off p q)).map Prod.fst
          else
            .ok (if inclusive then
              (match tc with
                | some t => Bitmap.union q t
                | none => q)
              else q)
        | .err => .err
        | .panic => .panic
  | .err => .err
  | .panic => .panic

/-! ## Minimum and maximum -/

/-- Body of the candidate loops (min_max.rs:21-36, 88-103, 196-206, 214-224, 248-258): `(best, next)`. -/
def bestStep (isMin : Bool) (a : Nat × Bitmap) (x s : Nat) : Nat × Bitmap :=
  if s = a.1 then (a.1, Bitmap.insert x a.2)
  else if a.1 < s then (if isMin then a else (s, Bitmap.insert x []))
  else (if isMin then (s, Bitmap.insert x []) else a)

/-- `u8::MAX` / `u8::MIN`. -/
def bestInit (isMin : Bool) : Nat × Bitmap := (if isMin then 255 else 0, [])

/-- `find_max_subcolumn` (min_max.rs:11-40). -/
def findBest (isMin : Bool) (chunk : List Byte) (tc : Bitmap) (off : Nat) : Res Bitmap :=
  (idxLoop chunk off (fun a x b => bestStep isMin a x b.toNat) tc (bestInit isMin)).map Prod.snd

/-- `while remaining_bits_length > 0` (min_max.rs:70-117 and 231-272): byte columns, then the last column;
`flipTail`: 87 flips the last column's value, 248 does not. -/
def bestColumns (isMin flipTail : Bool) (buff : List Byte) (off n r : Nat) : Nat → Pos → Bitmap → Res Bitmap
  | 0, p, tc =>
    if 0 < r then
      (tailLoop buff off r mulU32
        (fun a x s => bestStep isMin a x (if flipTail then (flip (BitVec.ofNat 8 s)).toNat else s))
        tc 0 p (bestInit isMin)).map (fun x => x.1.2)
    else .ok tc
  | k + 1, p, tc =>
    match readNByte buff p n with
    | .ok (chunk, p) =>
      match findBest isMin chunk tc off with
      | .ok tc => bestColumns isMin flipTail buff off n r k p tc
      | .err => .err
      | .panic => .panic
    | .err => .err
    | .panic => .panic

/-- Re-reading one record (min_max.rs:121-152, 276-307); `p` is a position in `bytes[20..]`, kept here as
a position in the whole chunk. -/
def readRecord (buff : List Byte) (n r idx : Nat) : Nat → Pos → Nat → Res Nat
  | 0, p, d =>
    if 0 < r then
      match skip buff p (idx * r) with
      | none => .err
      | some p =>
        match readBits buff p r with
        | .ok (s, _) => .ok ((d <<< r) % 2 ^ 64 ||| s)
        | .err => .err
        | .panic => .panic
    else .ok d
  | k + 1, p, d =>
    match readByte buff (skipNByte p idx) with
    | .ok (b, p) => readRecord buff n r idx k (skipNByte p (n - idx - 1)) ((d <<< 8) % 2 ^ 64 ||| (flip b).toNat)
    | .err => .err
    | .panic => .panic

/-- The end of both functions (min_max.rs:119-157, 274-312): first candidate, its value. -/
def finishBest (o : FloatOps) (buff : List Byte) (h : Header) (off : Nat) (tc : Bitmap) : Res B64 :=
  match tc with
  | [] => .panic
  | x :: _ =>
    match readRecord buff h.n (h.bits % 8) (x - off) (h.bits / 8) ⟨20, 0⟩ 0 with
    | .ok d => .ok (value o h d)
    | .err => .err
    | .panic => .panic

/-- `max_with_bitmask` (min_max.rs:42-158). -/
def bestWithBitmask (o : FloatOps) (isMin : Bool) (buff : List Byte) (bm : Bitmap) (off : Nat) : Res B64 :=
  match readHeader buff with
  | .ok (h, p) =>
    if h.bits = 0 then .ok (dequant o h.F h.base)
    else
      match bestColumns isMin true buff off h.n (h.bits % 8) (h.bits / 8) p bm with
      | .ok tc => finishBest o buff h off tc
      | .err => .err
      | .panic => .panic
  | .err => .err
  | .panic => .panic

/-- `max_without_bitmask` (min_max.rs:160-313). -/
def maxWithoutBitmask (o : FloatOps) (buff : List Byte) (off : Nat) : Res B64 :=
  match readHeader buff with
  | .ok (h, p) =>
    if h.bits = 0 then .ok (dequant o h.F h.base)
    else if 8 ≤ h.bits then
      match readNByte buff p h.n with
      | .ok (chunk, p) =>
        let first := allLoop (fun a x b => bestStep false a x b.toNat) chunk off (bestInit false)
        match bestColumns false false buff off h.n (h.bits % 8) (h.bits / 8 - 1) p first.2 with
        | .ok tc => finishBest o buff h off tc
        | .err => .err
        | .panic => .panic
      | .err => .err
      | .panic => .panic
    else
      match tailAll buff h.bits (bestStep false) h.n off p (bestInit false) with
      | .ok (first, _) => finishBest o buff h off first.2
      | .err => .err
      | .panic => .panic
  | .err => .err
  | .panic => .panic

/-- `min_without_bitmask` (min_max.rs:316-341). -/
def minWithoutBitmask (o : FloatOps) (buff : List Byte) : Res B64 :=
  match do
    let (lower, p) ← readU32 buff ⟨0, 0⟩
    let (higher, p) ← readU32 buff p
    let (F, _) ← readU32 buff (skipNByte p 8)
    pure (BitVec.ofNat 64 (lower ||| higher <<< 32), F)
  with
  | some (base, F) => .ok (dequant o F base)
  | none => .err

/-! ## Sum -/

/-- `sum_byte_subcolumn` (sum.rs:8-24), `u64`. -/
def sumByteColumn (chunk : List Byte) (bm : Option Bitmap) (off : Nat) : Res Nat :=
  match bm with
  | some b => idxLoop chunk off (fun a _ b => a + b.toNat) b 0
  | none => .ok (allLoop (fun a _ b => a + b.toNat) chunk 0 0)

/-- `sum_bits_subcolumn` (sum.rs:26-58). -/
def sumTail (buff : List Byte) (off r n : Nat) (bm : Option Bitmap) (p : Pos) : Res Nat :=
  match bm with
  | some b => (tailLoop buff off r (fun a b => a * b) (fun a _ s => a + s) b 0 p 0).map (fun x => x.1)
  | none => (tailAll buff r (fun a _ s => a + s) n 0 p 0).map (fun x => x.1)

/-- `for i in (0..n_byte_subcolumns).rev()` (sum.rs:90-97). -/
def sumColumns (buff : List Byte) (off n r : Nat) (bm : Option Bitmap) : Nat → Pos → Nat → Res (Nat × Pos)
  | 0, p, s => .ok (s, p)
  | k + 1, p, s =>
    match readNByte buff p n with
    | .ok (chunk, p) =>
      match sumByteColumn chunk bm off with
      | .ok c => sumColumns buff off n r bm k p ((s + (c <<< (8 * k + r)) % 2 ^ 64) % 2 ^ 64)
      | .err => .err
      | .panic => .panic
    | .err => .err
    | .panic => .panic

/-- `sum_with_bitmask` (sum.rs:60-119). -/
def sumWithBitmask (o : FloatOps) (buff : List Byte) (bm : Option Bitmap) (off : Nat) : Res B64 :=
  match readHeader buff with
  | .ok (h, p) =>
    if h.bits = 0 then .ok (o.mul (dequant o h.F h.base) (o.ofNat h.n))
    else
      match sumColumns buff off h.n (h.bits % 8) bm (h.bits / 8) p 0 with
      | .ok (s, p) =>
        match (if h.bits % 8 ≠ 0 then
            (sumTail buff off (h.bits % 8) h.n bm p).map (fun t => (s + t) % 2 ^ 64)
          else .ok s) with
        | .ok s =>
          let len := match bm with
            | some b => b.length
            | none => h.n
          .ok (dequant o h.F (BitVec.ofNat 64 s + h.base * BitVec.ofNat 64 len))
        | .err => .err
        | .panic => .panic
      | .err => .err
      | .panic => .panic
  | .err => .err
  | .panic => .panic

/-! ## The reader -/

/-- `BUFFReader` (buff.rs:26-33). -/
structure Reader where
  numberOfRecords : Nat
  bytes : List Byte
  precision : Option Nat
  decompressed : Option (List B64)

/-- `new` (36-54), given the chunk bytes. -/
def Reader.new (n : Nat) (bytes : List Byte) : Reader := ⟨n, bytes, none, none⟩

/-- `with_controlled_precision` (57-63). -/
def Reader.withControlledPrecision (r : Reader) (precision : Nat) : Reader :=
  { r with
    decompressed := (match r.precision with
      | none => none
      | some old => if old < precision then none else r.decompressed)
    precision := some precision }

/-- `decompress` (85-100). -/
def Reader.decompress (o : FloatOps) (r : Reader) : Res (List B64 × Reader) :=
  match r.decompressed with
  | some vs => .ok (vs, r)
  | none =>
    match (match r.precision with
      | some p => decodeWithPrecision o r.bytes p
      | none => decode o r.bytes) with
    | .ok vs => .ok (vs, { r with decompressed := some vs })
    | .err => .err
    | .panic => .panic

/-- The bitmask restricted to the chunk (137-141, 251-257, 282-288, 314-320), in `u32`. -/
def Reader.restrict (r : Reader) (bm : Option Bitmap) (off : Nat) : Option Bitmap :=
  bm.map (Sprintz.inChunk off r.numberOfRecords)

/-- `bitmask - result` on bitmaps. -/
def diff (a b : Bitmap) : Bitmap := a.filter (fun x => !b.contains x)

/-- A bound of a range predicate (171-209). -/
def boundFilter (useSimd : Nat → Nat → Bool) (greater : Bool) (bytes : List Byte) (bm : Option Bitmap)
    (off : Nat) : RangeValue B64 → Res (Option Bitmap)
  | .inclusive v => (cmpFilter useSimd greater true bytes v bm off).map some
  | .exclusive v => (cmpFilter useSimd greater false bytes v bm off).map some
  | .none => .ok none

/-- `filter` (128-228). -/
def Reader.filter (useSimd : Nat → Nat → Bool) (r : Reader) (p : Predicate B64) (bm : Option Bitmap)
    (off : Nat) : Res Bitmap :=
  let off := off % 2 ^ 32
  let n := r.numberOfRecords % 2 ^ 32
  let bm := r.restrict bm off
  match p with
  | .eq v => equalFilter r.bytes v bm off
  | .ne v => (equalFilter r.bytes v bm off).map (fun res => diff (bm.getD (allRecords off n)) res)
  | .range g =>
    match boundFilter useSimd true r.bytes bm off g.start with
    | .ok left =>
      match boundFilter useSimd false r.bytes bm off g.stop with
      | .ok right =>
        .ok (match left, right with
          | none, none => bm.getD (allRecords off n)
          | none, some b => b
          | some a, none => a
          | some a, some b => Bitmap.inter a b)
      | .err => .err
      | .panic => .panic
    | .err => .err
    | .panic => .panic

/-- `filter_materialize` (230-241): filter, then `default_materialize` with the result. -/
def Reader.filterMaterialize (o : FloatOps) (useSimd : Nat → Nat → Bool) (r : Reader) (p : Predicate B64)
    (bm : Option Bitmap) (off : Nat) : Res (List B64 × Reader) :=
  match r.filter useSimd p bm off with
  | .ok sel =>
    match r.decompress o with
    | .ok (vs, r) => .ok (defaultMaterialize (some sel) off vs, r)
    | .err => .err
    | .panic => .panic
  | .err => .err
  | .panic => .panic

/-- `max` (243-272). -/
def Reader.max (o : FloatOps) (r : Reader) (bm : Option Bitmap) (off : Nat) : Res B64 :=
  let off := off % 2 ^ 32
  match r.restrict bm off with
  | some b => if b = [] then .ok nanBits else bestWithBitmask o false r.bytes b off
  | none => maxWithoutBitmask o r.bytes off

/-- `min` (274-303). -/
def Reader.min (o : FloatOps) (r : Reader) (bm : Option Bitmap) (off : Nat) : Res B64 :=
  let off := off % 2 ^ 32
  match r.restrict bm off with
  | some b => if b = [] then .ok nanBits else bestWithBitmask o true r.bytes b off
  | none => minWithoutBitmask o r.bytes

/-- `sum` (305-324). -/
def Reader.sum (o : FloatOps) (r : Reader) (bm : Option Bitmap) (off : Nat) : Res B64 :=
  let off := off % 2 ^ 32
  sumWithBitmask o r.bytes (r.restrict bm off) off

end Ebi.Buff
