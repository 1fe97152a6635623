import Verif.BitPack
import Verif.BuffFixed
import Verif.Word

/-!
# BUFF compressor and decoder

`ebi/src/compressor/buff.rs`, `ebi/src/decoder/chunk_reader/buff/decode.rs` and
`controlled_precision.rs`. `i64` arithmetic wraps (release build); a debug build panics on the
overflows instead.
-/

namespace Ebi.Buff

open Ebi BitPack

/-! ## Compressor -/

/-- `PRECISION_MAP.get(precision).unwrap()` with `precision = if scale == 0 { 0 } else
{ (scale as f32).log10() as usize }` (compressor/buff.rs:126-132, 199-201). `lg` stands for
`(scale as f32).log10() as usize`. `none` is the panic of `unwrap`. -/
def fractionBits (lg : Nat → Nat) (scale : Nat) : Option Nat :=
  precisionMap[if scale = 0 then 0 else lg scale]?

/-- The loop of `precalculate` (138-153) over the fixed-point values: `(min, min_index, max, max_index)`
at index `i`. -/
def minMaxLoop : List (BitVec 64) → Nat → BitVec 64 × Nat × BitVec 64 × Nat → Nat × Nat
  | [], _, (_, mi, _, ma) => (mi, ma)
  | x :: xs, i, (mn, mi, mx, ma) =>
    let (mn, mi) := if x.slt mn then (x, i) else (mn, mi)
    let (mx, ma) := if mx.slt x then (x, i) else (mx, ma)
    minMaxLoop xs (i + 1) (mn, mi, mx, ma)

/-- `min` and `max` indices of `Precalculated` (133-162). -/
def minMaxIndex (qs : List (BitVec 64)) : Nat × Nat :=
  minMaxLoop qs 0 (0x7fffffffffffffff#64, 0, 0x8000000000000000#64, 0)

/-- `fixed_representation_bits_length` (186-193) from `delta` (179-184). -/
def bitsLength (delta : BitVec 64) : Nat := if delta = 0#64 then 0 else 64 - lz64 delta.toNat

/-- The byte columns (281-293): `k` columns left, `r` bits below them. -/
def writeByteColumns (ds : List Nat) (r : Nat) : Nat → Pack → Pack
  | 0, p => p
  | k + 1, p =>
    writeByteColumns ds r k
      (ds.foldl (fun p d => p.writeByte (flip (BitVec.ofNat 8 (d / 2 ^ (8 * k + r))))) p)

/-- `buff_simd256_encode` (236-306) on the fixed-point values. The header writes cannot fail
(`unwrap_unchecked`). `while remaining_bits_length >= 8` runs `bits / 8` times and leaves `bits % 8`. -/
def encode (qs : List (BitVec 64)) (F : Nat) : Res (List Byte) :=
  match qs[(minMaxIndex qs).1]?, qs[(minMaxIndex qs).2]? with
  | some base, some top =>
    let ds := qs.map (fun x => (x - base).toNat)
    let bits := bitsLength (top - base)
    let n := qs.length % 2 ^ 32
    match do
      let p ← Pack.new.write (base.toNat % 2 ^ 32) 32
      let p ← p.write (base.toNat / 2 ^ 32) 32
      let p ← p.write n 32
      let p ← p.write bits 32
      p.write F 32
    with
    | none => .panic
    | some p =>
      if 0 < bits ∧ bits < 8 then
        match writeColumn bits ds p with
        | none => .panic
        | some p => .ok p.buff
      else
        let p := writeByteColumns ds (bits % 8) (bits / 8) p
        if 0 < bits % 8 then
          match writeColumn (bits % 8) ds p.finishWriteByte with
          | none => .panic
          | some p => .ok p.buff
        else .ok p.buff
  | _, _ => .panic

/-- `BUFFCompressor` (15-21) without the timer; `data` is never filled. -/
structure Comp where
  totalBytesIn : Nat
  scale : Nat
  compressed : Option (List Byte)

/-- `new` (24-32). -/
def Comp.new (scale : Nat) : Comp := ⟨0, scale, none⟩

/-- `compress` (46-54) with `compress_with_precalculated` (34-43). -/
def Comp.compress (lg : Nat → Nat) (c : Comp) (data : List B64) : Res Comp :=
  match fractionBits lg c.scale with
  | none => .panic
  | some F =>
    match encode (data.map (fun v => intoFixed v F)) F with
    | .ok bytes =>
      .ok { c with totalBytesIn := c.totalBytesIn + 8 * data.length, compressed := some bytes }
    | .err => .err
    | .panic => .panic

/-- `reset` (73-78). -/
def Comp.reset (c : Comp) : Comp := { c with totalBytesIn := 0, compressed := none }

/-- `total_bytes_buffered` (60-62). -/
def Comp.totalBytesBuffered (c : Comp) : Nat :=
  match c.compressed with
  | none => 0
  | some v => v.length

/-- `prepare` (64). -/
def Comp.prepare (c : Comp) : Comp := c

/-- `buffers` (66-70). -/
def Comp.buffers (c : Comp) : List Byte := c.compressed.getD []

/-! ## Decoder -/

/-- The five header words, read with `unwrap` at the start of every function (decode.rs:6-17 etc.). -/
structure Header where
  base : BitVec 64
  n : Nat
  bits : Nat
  F : Nat
deriving DecidableEq

def readHeader (buff : List Byte) : Res (Header × Pos) :=
  match do
    let (lower, p) ← readU32 buff ⟨0, 0⟩
    let (higher, p) ← readU32 buff p
    let (n, p) ← readU32 buff p
    let (bits, p) ← readU32 buff p
    let (F, p) ← readU32 buff p
    pure ((⟨BitVec.ofNat 64 (lower ||| higher <<< 32), n, bits, F⟩ : Header), p)
  with
  | some x => .ok x
  | none => .panic

/-- `(base_fixed64 + delta as i64) as f64 / scale`; `scale = 2f64.powi(F)` is exactly `2^F`. -/
def dequant (o : FloatOps) (F : Nat) (x : BitVec 64) : B64 := o.div (o.ofI64 x) (o.ofNat (2 ^ F))

def value (o : FloatOps) (h : Header) (delta : Nat) : B64 :=
  dequant o h.F (h.base + BitVec.ofNat 64 delta)

/-- `(0..k).map(|_| bitpack.read_bits(r).unwrap())`. -/
def readColumn (buff : List Byte) (r : Nat) : Nat → Pos → Res (List Nat × Pos)
  | 0, p => .ok ([], p)
  | k + 1, p =>
    match readBits buff p r with
    | .ok (x, p) =>
      match readColumn buff r k p with
      | .ok (xs, p) => .ok (x :: xs, p)
      | .err => .err
      | .panic => .panic
    | _ => .panic

/-- One byte column or-ed into `fixed_vec` (decode.rs:37-52). -/
def orColumn (fixed : List Nat) (col : List Byte) (R : Nat) : List Nat :=
  fixed.zipWith (fun f x => f ||| ((flip x).toNat <<< R) % 2 ^ 64) col

/-- `while remaining >= 8` (decode.rs:44-52): `k` byte columns left above `r` bits, continuing while
`stop < remaining`; `stop = 0` is the plain decoder (a loop condition `remaining >= 8` only). Returns the
partial values and the number of bits not yet read. -/
def decodeColumns (buff : List Byte) (n r stop : Nat) : Nat → Pos → List Nat → Res (List Nat × Nat × Pos)
  | 0, p, fixed => .ok (fixed, r, p)
  | k + 1, p, fixed =>
    if stop < 8 * (k + 1) + r then
      match readNByte buff p n with
      | .ok (col, p) => decodeColumns buff n r stop k p (orColumn fixed col (8 * k + r))
      | _ => .panic
    else .ok (fixed, 8 * (k + 1) + r, p)

/-- Decoding down to the bits at or below `stop` (`decode.rs:5-70` for `stop = 0`,
`controlled_precision.rs:5-75` with `stop = bits_unnecessary`): the two functions differ only in the stop
condition, so they share this body. -/
def decodeTo (o : FloatOps) (buff : List Byte) (stop : Nat → Option Nat) : Res (List B64) :=
  match readHeader buff with
  | .ok (h, p) =>
    match stop h.F with
    | none => .panic
    | some stop =>
      if h.bits = 0 then .ok (List.replicate h.n (dequant o h.F h.base))
      else if h.bits < 8 then
        match readColumn buff h.bits h.n p with
        | .ok (xs, _) => .ok (xs.map (value o h))
        | _ => .panic
      else
        match readNByte buff p h.n with
        | .ok (col, p) =>
          let first := col.map (fun x => ((flip x).toNat <<< (h.bits - 8)) % 2 ^ 64)
          match decodeColumns buff h.n (h.bits % 8) stop (h.bits / 8 - 1) p first with
          | .ok (fixed, R, p) =>
            if R = 0 ∨ R ≤ stop then .ok (fixed.map (value o h))
            else
              match readColumn buff R h.n p with
              | .ok (xs, _) => .ok ((fixed.zipWith (· ||| ·) xs).map (value o h))
              | _ => .panic
          | _ => .panic
        | _ => .panic
  | .err => .err
  | .panic => .panic

/-- `buff_simd256_decode` (decode.rs:5-70). -/
def decode (o : FloatOps) (buff : List Byte) : Res (List B64) := decodeTo o buff (fun _ => some 0)

/-- `bits_unnecessary` (controlled_precision.rs:25-27); indexing past the table panics. -/
def bitsUnnecessary (precision F : Nat) : Option Nat := (precisionMap[precision]?).map (F - ·)

/-- `decode_with_precision` (controlled_precision.rs:5-75). -/
def decodeWithPrecision (o : FloatOps) (buff : List Byte) (precision : Nat) : Res (List B64) :=
  decodeTo o buff (bitsUnnecessary precision)

/-! ## The layout of a chunk -/

def header (base : BitVec 64) (n bits F : Nat) : List Byte :=
  leBytes 4 (base.toNat % 2 ^ 32) ++ (leBytes 4 (base.toNat / 2 ^ 32) ++ (leBytes 4 n ++
    (leBytes 4 bits ++ leBytes 4 F)))

theorem header_length (base : BitVec 64) (n bits F : Nat) : (header base n bits F).length = 20 := by
  simp [header]

/-- One byte column. -/
def column (ds : List Nat) (R : Nat) : List Byte := ds.map (fun d => flip (BitVec.ofNat 8 (d / 2 ^ R)))

@[simp] theorem column_length (ds : List Nat) (R : Nat) : (column ds R).length = ds.length := by
  simp [column]

/-- The byte columns, most significant first. -/
def columns (ds : List Nat) (r : Nat) : Nat → List Byte
  | 0 => []
  | k + 1 => column ds (8 * k + r) ++ columns ds r k

theorem columns_length (ds : List Nat) (r k : Nat) : (columns ds r k).length = k * ds.length := by
  induction k with
  | zero => simp [columns]
  | succ k ih => simp [columns, ih, Nat.add_mul]; omega

/-- The last column. -/
def tailBytes (ds : List Nat) (r : Nat) : List Byte := leBytes ((r * ds.length + 7) / 8) (packN r ds)

/-- A whole chunk. -/
def layout (base : BitVec 64) (F bits : Nat) (ds : List Nat) : List Byte :=
  header base ds.length bits F ++ (columns ds (bits % 8) (bits / 8) ++ tailBytes ds (bits % 8))

theorem tailBytes_zero (ds : List Nat) : tailBytes ds 0 = [] := by simp [tailBytes, leBytes]

theorem foldl_writeByte (ds : List Nat) (f : Nat → Byte) (p : Pack) :
    ds.foldl (fun p d => p.writeByte (f d)) p = { p with buff := p.buff ++ ds.map f } := by
  induction ds generalizing p with
  | nil => simp
  | cons d ds ih => rw [List.foldl_cons, ih]; simp [Pack.writeByte]

theorem writeByteColumns_eq (ds : List Nat) (r k : Nat) (p : Pack) :
    writeByteColumns ds r k p = { p with buff := p.buff ++ columns ds r k } := by
  induction k generalizing p with
  | zero => simp [writeByteColumns, columns]
  | succ k ih =>
    rw [writeByteColumns, foldl_writeByte, ih]
    simp [columns, column]

theorem writeHeader (base : BitVec 64) (n bits F : Nat) (hn : n < 2 ^ 32) (hb : bits < 2 ^ 32)
    (hF : F < 2 ^ 32) :
    (do
      let p ← Pack.new.write (base.toNat % 2 ^ 32) 32
      let p ← p.write (base.toNat / 2 ^ 32) 32
      let p ← p.write n 32
      let p ← p.write bits 32
      p.write F 32) = some ⟨header base n bits F, 20, 0⟩ := by
  have hb64 := base.isLt
  have h1 := write_aligned [] (base.toNat % 2 ^ 32) (Nat.mod_lt _ (by decide))
  rw [List.nil_append] at h1
  have h2 := write_aligned (leBytes 4 (base.toNat % 2 ^ 32)) (base.toNat / 2 ^ 32) (by omega)
  have h3 := write_aligned (leBytes 4 (base.toNat % 2 ^ 32) ++ leBytes 4 (base.toNat / 2 ^ 32)) n hn
  have h4 := write_aligned (leBytes 4 (base.toNat % 2 ^ 32) ++ leBytes 4 (base.toNat / 2 ^ 32)
    ++ leBytes 4 n) bits hb
  have h5 := write_aligned (leBytes 4 (base.toNat % 2 ^ 32) ++ leBytes 4 (base.toNat / 2 ^ 32)
    ++ leBytes 4 n ++ leBytes 4 bits) F hF
  simp only [List.length_append, leBytes_length, List.length_nil] at h1 h2 h3 h4 h5
  unfold Pack.new
  rw [h1]
  simp only [Option.bind_eq_bind, Option.bind_some]
  rw [h2]
  simp only [Option.bind_some]
  rw [h3]
  simp only [Option.bind_some]
  rw [h4]
  simp only [Option.bind_some]
  rw [h5]
  simp [header]

/-! ## Minimum, maximum and width -/

/-- A least / greatest element by signed order. -/
def IsMin (qs : List (BitVec 64)) (m : BitVec 64) : Prop := m ∈ qs ∧ ∀ x ∈ qs, m.toInt ≤ x.toInt
def IsMax (qs : List (BitVec 64)) (m : BitVec 64) : Prop := m ∈ qs ∧ ∀ x ∈ qs, x.toInt ≤ m.toInt

theorem minMaxLoop_spec (qs pre : List (BitVec 64)) (mn mx : BitVec 64) (mi ma : Nat)
    (h1 : ∀ x ∈ pre, mn.toInt ≤ x.toInt) (h2 : ∀ x ∈ pre, x.toInt ≤ mx.toInt)
    (h3 : pre ≠ [] → pre[mi]? = some mn) (h4 : pre ≠ [] → pre[ma]? = some mx)
    (h5 : pre = [] → mn = 0x7fffffffffffffff#64 ∧ mx = 0x8000000000000000#64 ∧ mi = 0 ∧ ma = 0)
    (hne : pre ++ qs ≠ []) :
    ∃ a b, (pre ++ qs)[(minMaxLoop qs pre.length (mn, mi, mx, ma)).1]? = some a ∧
      (pre ++ qs)[(minMaxLoop qs pre.length (mn, mi, mx, ma)).2]? = some b ∧
      IsMin (pre ++ qs) a ∧ IsMax (pre ++ qs) b := by
  induction qs generalizing pre mn mx mi ma with
  | nil =>
    rw [List.append_nil] at *
    refine ⟨mn, mx, h3 hne, h4 hne, ⟨List.mem_of_getElem? (h3 hne), h1⟩, ⟨List.mem_of_getElem? (h4 hne), h2⟩⟩
  | cons x xs ih =>
    have happ : pre ++ x :: xs = (pre ++ [x]) ++ xs := by simp
    rw [happ]
    have hlo := BitVec.le_toInt x
    have hhi := BitVec.toInt_lt (x := x)
    simp only [Nat.add_one_sub_one] at hlo hhi
    have tmax : (0x7fffffffffffffff#64).toInt = 2 ^ 63 - 1 := by decide
    have tmin : (0x8000000000000000#64).toInt = -2 ^ 63 := by decide
    have hget : (pre ++ [x])[pre.length]? = some x := by simp
    have hkeep : ∀ (i : Nat) (v : BitVec 64), pre ≠ [] → pre[i]? = some v → (pre ++ [x])[i]? = some v := by
      intro i v _ hv
      rw [List.getElem?_append_left (List.getElem?_eq_some_iff.1 hv).1]
      exact hv
    have hmemP : ∀ y, y ∈ pre ++ [x] ↔ y ∈ pre ∨ y = x := by intro y; simp
    -- the minimum after this element
    have hmn : ∃ mn' mi', (if x.slt mn then (x, pre.length) else (mn, mi)) = (mn', mi') ∧
        (pre ++ [x])[mi']? = some mn' ∧ ∀ y ∈ pre ++ [x], mn'.toInt ≤ y.toInt := by
      by_cases hc : x.slt mn = true
      · have hlt : x.toInt < mn.toInt := by simpa [BitVec.slt] using hc
        refine ⟨x, pre.length, if_pos hc, hget, ?_⟩
        intro y hy
        rcases (hmemP y).1 hy with hy | rfl
        · have := h1 y hy; omega
        · exact Int.le_refl _
      · have hle : mn.toInt ≤ x.toInt := by simpa [BitVec.slt] using hc
        refine ⟨mn, mi, if_neg hc, ?_, ?_⟩
        · by_cases hp : pre = []
          · obtain ⟨rfl, rfl, rfl, rfl⟩ := h5 hp
            subst hp
            have : x = 0x7fffffffffffffff#64 := BitVec.eq_of_toInt_eq (by omega)
            simp [this]
          · exact hkeep mi mn hp (h3 hp)
        · intro y hy
          rcases (hmemP y).1 hy with hy | rfl
          · exact h1 y hy
          · exact hle
    have hmx : ∃ mx' ma', (if mx.slt x then (x, pre.length) else (mx, ma)) = (mx', ma') ∧
        (pre ++ [x])[ma']? = some mx' ∧ ∀ y ∈ pre ++ [x], y.toInt ≤ mx'.toInt := by
      by_cases hc : mx.slt x = true
      · have hlt : mx.toInt < x.toInt := by simpa [BitVec.slt] using hc
        refine ⟨x, pre.length, if_pos hc, hget, ?_⟩
        intro y hy
        rcases (hmemP y).1 hy with hy | rfl
        · have := h2 y hy; omega
        · exact Int.le_refl _
      · have hle : x.toInt ≤ mx.toInt := by simpa [BitVec.slt] using hc
        refine ⟨mx, ma, if_neg hc, ?_, ?_⟩
        · by_cases hp : pre = []
          · obtain ⟨rfl, rfl, rfl, rfl⟩ := h5 hp
            subst hp
            have : x = 0x8000000000000000#64 := BitVec.eq_of_toInt_eq (by omega)
            simp [this]
          · exact hkeep ma mx hp (h4 hp)
        · intro y hy
          rcases (hmemP y).1 hy with hy | rfl
          · exact h2 y hy
          · exact hle
    obtain ⟨mn', mi', e1, e2, e3⟩ := hmn
    obtain ⟨mx', ma', f1, f2, f3⟩ := hmx
    have := ih (pre ++ [x]) mn' mx' mi' ma' e3 f3 (fun _ => e2) (fun _ => f2) (by simp) (by simp)
    rw [List.length_append, List.length_singleton] at this
    rw [minMaxLoop, e1, f1]
    exact this

theorem minMaxIndex_spec (qs : List (BitVec 64)) (h : qs ≠ []) :
    ∃ a b, qs[(minMaxIndex qs).1]? = some a ∧ qs[(minMaxIndex qs).2]? = some b ∧
      IsMin qs a ∧ IsMax qs b := by
  have := minMaxLoop_spec qs [] 0x7fffffffffffffff#64 0x8000000000000000#64 0 0 (by simp) (by simp)
    (by simp) (by simp) (by simp) (by simpa using h)
  simpa [minMaxIndex] using this

/-- Unsigned distance from the minimum is the integer distance. -/
theorem sub_toNat {a x : BitVec 64} (h : a.toInt ≤ x.toInt) : ((x - a).toNat : Int) = x.toInt - a.toInt := by
  have h1 := BitVec.le_toInt x
  have h2 := BitVec.toInt_lt (x := x)
  have h3 := BitVec.le_toInt a
  have h4 := BitVec.toInt_lt (x := a)
  simp only [Nat.add_one_sub_one] at h1 h2 h3 h4
  have e1 := BitVec.toInt_eq_toNat_cond x
  have e2 := BitVec.toInt_eq_toNat_cond a
  have l1 := x.isLt
  have l2 := a.isLt
  rw [BitVec.toNat_sub]
  split at e1 <;> split at e2 <;> omega

theorem lt_bitsLength (x : BitVec 64) : x.toNat < 2 ^ bitsLength x := by
  unfold bitsLength
  split
  · rename_i h; subst h; decide
  · exact lt_of_lz64 x.isLt

theorem bitsLength_le (x : BitVec 64) : bitsLength x ≤ 64 := by
  unfold bitsLength; split <;> omega

theorem le_bitsLength (x : BitVec 64) (h : bitsLength x ≠ 0) : 2 ^ (bitsLength x - 1) ≤ x.toNat := by
  unfold bitsLength at h ⊢
  split
  · rename_i h0; rw [if_pos h0] at h; exact absurd rfl h
  · rename_i h0
    have := le_of_lz64 (x := x.toNat) (fun hc => h0 (BitVec.eq_of_toNat_eq (by simpa using hc))) x.isLt
    rwa [show 64 - lz64 x.toNat - 1 = 63 - lz64 x.toNat by omega]

/-- What the encoder produces; the width is the least one for the range of the values. -/
theorem encode_tight (qs : List (BitVec 64)) (F : Nat) (hne : qs ≠ []) (hn : qs.length < 2 ^ 32)
    (hF : F < 2 ^ 32) :
    ∃ base bits, encode qs F = .ok (layout base F bits (qs.map (fun x => (x - base).toNat))) ∧
      IsMin qs base ∧ bits ≤ 64 ∧ (∀ x ∈ qs, (x - base).toNat < 2 ^ bits) ∧
      (bits ≠ 0 → ∃ x ∈ qs, 2 ^ (bits - 1) ≤ (x - base).toNat) := by
  obtain ⟨base, top, h1, h2, hmin, hmax⟩ := minMaxIndex_spec qs hne
  have hb := bitsLength_le (top - base)
  refine ⟨base, bitsLength (top - base), ?_, hmin, hb, ?_, fun h0 => ⟨top, hmax.1, le_bitsLength _ h0⟩⟩
  · unfold encode
    rw [h1, h2]
    simp only
    rw [Nat.mod_eq_of_lt hn, writeHeader _ _ _ _ hn (by omega) hF]
    generalize hds : qs.map (fun x => (x - base).toNat) = ds
    have hlen : ds.length = qs.length := by rw [← hds, List.length_map]
    have hdne : ds ≠ [] := by
      intro hc; rw [hc] at hlen; exact hne (List.eq_nil_of_length_eq_zero hlen.symm)
    generalize bitsLength (top - base) = bits at *
    simp only
    unfold layout
    rw [hlen]
    split
    · rename_i hsub
      obtain ⟨q, e1, e2⟩ := writeColumn_aligned (header base qs.length bits F) 0 (by decide) bits hsub.1 ds hdne
      rw [header_length] at e1
      rw [List.replicate_zero, List.append_nil] at e1
      rw [e1]
      simp only
      rw [e2, show bits % 8 = bits from Nat.mod_eq_of_lt hsub.2, show bits / 8 = 0 from
        Nat.div_eq_of_lt hsub.2]
      rfl
    · rw [writeByteColumns_eq]
      simp only
      split
      · rename_i hr
        obtain ⟨q, e1, e2⟩ := writeColumn_aligned
          (header base qs.length bits F ++ columns ds (bits % 8) (bits / 8)) 1 (by decide) (bits % 8) hr ds hdne
        unfold Pack.finishWriteByte
        simp only
        rw [List.replicate_one] at e1
        rw [e1]
        simp only
        rw [e2, List.append_assoc]
        rfl
      · rename_i hr
        rw [show bits % 8 = 0 by omega, tailBytes_zero, List.append_nil]
  · intro x hx
    have hle := hmax.2 x hx
    have h3 := sub_toNat (hmin.2 x hx)
    have h4 := sub_toNat (hmin.2 top hmax.1)
    have h5 := lt_bitsLength (top - base)
    omega

theorem encode_eq (qs : List (BitVec 64)) (F : Nat) (hne : qs ≠ []) (hn : qs.length < 2 ^ 32)
    (hF : F < 2 ^ 32) :
    ∃ base bits, encode qs F = .ok (layout base F bits (qs.map (fun x => (x - base).toNat))) ∧
      IsMin qs base ∧ bits ≤ 64 ∧ ∀ x ∈ qs, (x - base).toNat < 2 ^ bits := by
  obtain ⟨base, bits, h1, h2, h3, h4, -⟩ := encode_tight qs F hne hn hF
  exact ⟨base, bits, h1, h2, h3, h4⟩

/-! ## Reading the layout -/

/-- A chunk with its parameters. -/
structure Stored (buff : List Byte) (base : BitVec 64) (F bits : Nat) (ds : List Nat) : Prop where
  eq : buff = layout base F bits ds
  n_lt : ds.length < 2 ^ 32
  F_lt : F < 2 ^ 32
  bits_le : bits ≤ 64
  fit : ∀ d ∈ ds, d < 2 ^ bits

theorem Stored.header {buff : List Byte} {base : BitVec 64} {F bits : Nat} {ds : List Nat}
    (h : Stored buff base F bits ds) :
    readHeader buff = .ok (⟨base, ds.length, bits, F⟩, ⟨20, 0⟩) := by
  have hb := base.isLt
  have hbl := h.bits_le
  rw [h.eq]
  unfold layout Buff.header
  generalize columns ds (bits % 8) (bits / 8) ++ tailBytes ds (bits % 8) = t
  have h1 := readU32_append [] (base.toNat % 2 ^ 32) (leBytes 4 (base.toNat / 2 ^ 32) ++
    (leBytes 4 ds.length ++ (leBytes 4 bits ++ (leBytes 4 F ++ t)))) (Nat.mod_lt _ (by decide))
  have h2 := readU32_append (leBytes 4 (base.toNat % 2 ^ 32)) (base.toNat / 2 ^ 32)
    (leBytes 4 ds.length ++ (leBytes 4 bits ++ (leBytes 4 F ++ t))) (by omega)
  have h3 := readU32_append (leBytes 4 (base.toNat % 2 ^ 32) ++ leBytes 4 (base.toNat / 2 ^ 32)) ds.length
    (leBytes 4 bits ++ (leBytes 4 F ++ t)) h.n_lt
  have h4 := readU32_append (leBytes 4 (base.toNat % 2 ^ 32) ++ leBytes 4 (base.toNat / 2 ^ 32) ++
    leBytes 4 ds.length) bits (leBytes 4 F ++ t) (by omega)
  have h5 := readU32_append (leBytes 4 (base.toNat % 2 ^ 32) ++ leBytes 4 (base.toNat / 2 ^ 32) ++
    leBytes 4 ds.length ++ leBytes 4 bits) F t h.F_lt
  simp only [List.length_append, leBytes_length, List.append_assoc, List.nil_append, List.length_nil,
    Nat.zero_add] at h1 h2 h3 h4 h5
  unfold readHeader
  simp only [List.append_assoc]
  rw [h1]
  simp only [Option.bind_eq_bind, Option.bind_some]
  rw [h2]
  simp only [Option.bind_some]
  rw [h3]
  simp only [Option.bind_some]
  rw [h4]
  simp only [Option.bind_some]
  rw [h5]
  simp only [Option.bind_some, Option.pure_def]
  rw [or_shift (Nat.mod_lt _ (by decide))]
  have : BitVec.ofNat 64 (base.toNat % 2 ^ 32 + 2 ^ 32 * (base.toNat / 2 ^ 32)) = base := by
    rw [Nat.mod_add_div]; simp
  rw [this]

/-- The columns from the `k`-th on start at `20 + (bits/8 - k) * n`. -/
theorem columns_split (ds : List Nat) (r k K : Nat) (h : k ≤ K) :
    ∃ pre, columns ds r K = pre ++ columns ds r k ∧ pre.length = (K - k) * ds.length := by
  induction K with
  | zero =>
    have : k = 0 := by omega
    subst this
    exact ⟨[], rfl, by simp⟩
  | succ K ih =>
    by_cases hk : k = K + 1
    · subst hk; exact ⟨[], rfl, by simp⟩
    · obtain ⟨pre, h1, h2⟩ := ih (by omega)
      refine ⟨column ds (8 * K + r) ++ pre, by simp [columns, h1], ?_⟩
      rw [List.length_append, h2, column_length, show K + 1 - k = K - k + 1 by omega, Nat.add_mul]
      omega

/-- Start of the byte column with `k` columns from it on. -/
def colStart (bits n k : Nat) : Nat := 20 + (bits / 8 - k) * n

theorem Stored.byteColumn {buff : List Byte} {base : BitVec 64} {F bits : Nat} {ds : List Nat}
    (h : Stored buff base F bits ds) {k : Nat} (hk : k + 1 ≤ bits / 8) :
    readNByte buff ⟨colStart bits ds.length (k + 1), 0⟩ ds.length
      = .ok (column ds (8 * k + bits % 8), ⟨colStart bits ds.length k, 0⟩) := by
  obtain ⟨pre, h1, h2⟩ := columns_split ds (bits % 8) (k + 1) (bits / 8) hk
  have hb : buff = (Buff.header base ds.length bits F ++ pre) ++ (column ds (8 * k + bits % 8) ++
      (columns ds (bits % 8) k ++ tailBytes ds (bits % 8))) := by
    rw [h.eq, layout, h1, columns]; simp
  have hl : (Buff.header base ds.length bits F ++ pre).length = colStart bits ds.length (k + 1) := by
    rw [List.length_append, header_length, h2]; rfl
  have := readNByte_append (Buff.header base ds.length bits F ++ pre) (column ds (8 * k + bits % 8))
    (columns ds (bits % 8) k ++ tailBytes ds (bits % 8)) ds.length (column_length _ _)
  rw [hb, ← hl, this, hl]
  congr 3
  unfold colStart
  rw [show bits / 8 - k = bits / 8 - (k + 1) + 1 by omega, Nat.add_mul]
  omega

/-- Length of the chunk in bits, from the last column on. -/
theorem Stored.length {buff : List Byte} {base : BitVec 64} {F bits : Nat} {ds : List Nat}
    (h : Stored buff base F bits ds) :
    buff.length = colStart bits ds.length 0 + (bits % 8 * ds.length + 7) / 8 := by
  rw [h.eq, layout]
  simp [header_length, columns_length, tailBytes, colStart]
  omega

theorem Stored.tailNum {buff : List Byte} {base : BitVec 64} {F bits : Nat} {ds : List Nat}
    (h : Stored buff base F bits ds) :
    leNat buff / 2 ^ (8 * colStart bits ds.length 0) = packN (bits % 8) ds := by
  have hl : (Buff.header base ds.length bits F ++ columns ds (bits % 8) (bits / 8)).length
      = colStart bits ds.length 0 := by
    rw [List.length_append, header_length, columns_length]; simp [colStart]
  rw [h.eq, layout, ← List.append_assoc, leNat_append, hl, ← pow256, Nat.add_mul_div_left _ _
    (Nat.pow_pos (by decide)), Nat.div_eq_of_lt (by rw [← hl]; exact leNat_lt _), Nat.zero_add, tailBytes,
    leNat_leBytes, pow256]
  apply Nat.mod_eq_of_lt
  exact Nat.lt_of_lt_of_le (packN_lt _ ds) (Nat.pow_le_pow_right (by decide) (by omega))

/-- Position of record `i` in the last column. -/
def AtRecord (p : Pos) (bits n i : Nat) : Prop :=
  p.bits ≤ 8 ∧ p.sumBits = 8 * colStart bits n 0 + bits % 8 * i

/-- Reading record `i` of the last column. -/
theorem Stored.readTail {buff : List Byte} {base : BitVec 64} {F bits : Nat} {ds : List Nat}
    (h : Stored buff base F bits ds) (hr : 0 < bits % 8) {p : Pos} {i d : Nat}
    (hp : AtRecord p bits ds.length i) (hd : ds[i]? = some d) :
    ∃ q, readBits buff p (bits % 8) = .ok (d % 2 ^ (bits % 8), q) ∧ AtRecord q bits ds.length (i + 1) := by
  have hi : i < ds.length := (List.getElem?_eq_some_iff.1 hd).1
  have hmul : bits % 8 * i + bits % 8 ≤ bits % 8 * ds.length := by
    rw [← Nat.mul_succ]; exact Nat.mul_le_mul_left _ hi
  have hl := h.length
  obtain ⟨q, e1, e2, e3⟩ := readBits_spec (buff := buff) (n := bits % 8) hp.1 hr (by omega) (by
    rw [hp.2]; omega)
  refine ⟨q, ?_, e2, ?_⟩
  · rw [e1, hp.2, Nat.pow_add, ← Nat.div_div_eq_div_mul, h.tailNum, packN_get _ _ _ _ hd]
  · rw [e3, hp.2, Nat.mul_succ, Nat.add_assoc]

/-- Skipping `m` records of the last column. -/
theorem Stored.skipTail {buff : List Byte} {base : BitVec 64} {F bits : Nat} {ds : List Nat}
    (h : Stored buff base F bits ds) {p : Pos} {i m : Nat} (hp : AtRecord p bits ds.length i)
    (hm : i + m ≤ ds.length) :
    ∃ q, skip buff p (m * (bits % 8)) = some q ∧ AtRecord q bits ds.length (i + m) := by
  have hmul : bits % 8 * (i + m) ≤ bits % 8 * ds.length := Nat.mul_le_mul_left _ hm
  have hl := h.length
  rw [Nat.mul_add, Nat.mul_comm (bits % 8) m] at hmul
  obtain ⟨q, e1, e2, e3⟩ := skip_spec (buff := buff) (n := m * (bits % 8)) hp.1 (by rw [hp.2]; omega)
  refine ⟨q, e1, e2, ?_⟩
  rw [e3, hp.2, Nat.mul_add, Nat.mul_comm (bits % 8) m]
  omega

theorem atRecord_zero (bits n : Nat) : AtRecord ⟨colStart bits n 0, 0⟩ bits n 0 := by
  refine ⟨by simp, ?_⟩
  simp [Pos.sumBits]
  omega

theorem Stored.readColumn {buff : List Byte} {base : BitVec 64} {F bits : Nat} {ds : List Nat}
    (h : Stored buff base F bits ds) (hr : 0 < bits % 8) (i : Nat) (hi : i ≤ ds.length) {p : Pos}
    (hp : AtRecord p bits ds.length i) :
    ∃ q, Buff.readColumn buff (bits % 8) (ds.length - i) p
      = .ok ((ds.drop i).map (· % 2 ^ (bits % 8)), q) := by
  generalize hk : ds.length - i = k
  induction k generalizing i p with
  | zero =>
    refine ⟨p, ?_⟩
    rw [List.drop_of_length_le (by omega)]
    rfl
  | succ k ih =>
    have hlt : i < ds.length := by omega
    obtain ⟨q, e1, e2⟩ := h.readTail hr hp (List.getElem?_eq_getElem hlt)
    obtain ⟨q', e3⟩ := ih (i + 1) (by omega) e2 (by omega)
    refine ⟨q', ?_⟩
    rw [List.drop_eq_getElem_cons hlt, Buff.readColumn, e1]
    simp only
    rw [e3]
    rfl

/-! ## Decoding -/

/-- The high bits of `d`, from bit `R` up. -/
def high (R d : Nat) : Nat := d / 2 ^ R * 2 ^ R

theorem high_step (R d : Nat) (hd : d < 2 ^ 64) :
    high (R + 8) d ||| ((flip (flip (BitVec.ofNat 8 (d / 2 ^ R)))).toNat <<< R) % 2 ^ 64 = high R d := by
  rw [flip_flip, BitVec.toNat_ofNat, Nat.shiftLeft_eq]
  have e1 : d / 2 ^ (R + 8) = d / 2 ^ R / 2 ^ 8 := by rw [Nat.pow_add, Nat.div_div_eq_div_mul]
  have hle : d / 2 ^ R % 2 ^ 8 * 2 ^ R ≤ d := by
    have h1 : d / 2 ^ R % 2 ^ 8 ≤ d / 2 ^ R := Nat.mod_le _ _
    have h2 : d / 2 ^ R * 2 ^ R ≤ d := Nat.div_mul_le_self _ _
    exact Nat.le_trans (Nat.mul_le_mul_right _ h1) h2
  rw [Nat.mod_eq_of_lt (by omega)]
  have hlow : d / 2 ^ R % 2 ^ 8 * 2 ^ R < 2 ^ (R + 8) := by
    rw [Nat.pow_add, Nat.mul_comm]
    exact Nat.mul_lt_mul_of_pos_left (Nat.mod_lt _ (by decide)) (Nat.two_pow_pos _)
  unfold high
  rw [e1, Nat.mul_comm _ (2 ^ (R + 8)), ← Nat.two_pow_add_eq_or_of_lt hlow, Nat.pow_add, Nat.mul_assoc,
    Nat.mul_comm _ (2 ^ R), ← Nat.mul_add, Nat.div_add_mod, Nat.mul_comm]

theorem high_zero {R d : Nat} (h : d < 2 ^ R) : high R d = 0 := by
  unfold high; rw [Nat.div_eq_of_lt h, Nat.zero_mul]

theorem high_or (R d : Nat) : high R d ||| d % 2 ^ R = d := by
  unfold high
  rw [Nat.mul_comm, ← Nat.two_pow_add_eq_or_of_lt (Nat.mod_lt _ (Nat.two_pow_pos _)), Nat.div_add_mod]

theorem high_at_zero (d : Nat) : high 0 d = d := by simp [high]

theorem high_le (R d : Nat) : high R d ≤ d := Nat.div_mul_le_self _ _

theorem lt_high (R d : Nat) : d < high R d + 2 ^ R := by
  unfold high
  have h1 := Nat.div_add_mod d (2 ^ R)
  have h2 : d % 2 ^ R < 2 ^ R := Nat.mod_lt _ (Nat.two_pow_pos _)
  rw [Nat.mul_comm] at h1
  omega

theorem orColumn_eq (ds : List Nat) (R : Nat) (h : ∀ d ∈ ds, d < 2 ^ 64) :
    orColumn (ds.map (high (R + 8))) (column ds R) R = ds.map (high R) := by
  unfold orColumn column
  rw [List.zipWith_map_left, List.zipWith_map_right, List.zipWith_self]
  apply List.map_congr_left
  intro d hd
  exact high_step R d (h d hd)

/-- `R` such that decoding with stop bit `stop` leaves the low `R` bits unread after the byte columns
`k - 1, …`. -/
theorem Stored.decodeColumns {buff : List Byte} {base : BitVec 64} {F bits : Nat} {ds : List Nat}
    (h : Stored buff base F bits ds) (stop k : Nat) (hk : k ≤ bits / 8) :
    ∃ j, j ≤ k ∧ (j ≠ 0 → 8 * j + bits % 8 ≤ stop) ∧
      (∀ i, j < i → i ≤ k → stop < 8 * i + bits % 8) ∧
      Buff.decodeColumns buff ds.length (bits % 8) stop k ⟨colStart bits ds.length k, 0⟩
        (ds.map (high (8 * k + bits % 8)))
      = .ok (ds.map (high (8 * j + bits % 8)), 8 * j + bits % 8, ⟨colStart bits ds.length j, 0⟩) := by
  have h64 : ∀ d ∈ ds, d < 2 ^ 64 := fun d hd =>
    Nat.lt_of_lt_of_le (h.fit d hd) (Nat.pow_le_pow_right (by decide) h.bits_le)
  induction k with
  | zero =>
    refine ⟨0, Nat.le_refl 0, by simp, by omega, ?_⟩
    simp [Buff.decodeColumns]
  | succ k ih =>
    by_cases hs : stop < 8 * (k + 1) + bits % 8
    · obtain ⟨j, j1, j2, j3, j4⟩ := ih (by omega)
      refine ⟨j, by omega, j2, ?_, ?_⟩
      · intro i h1 h2
        by_cases hi : i = k + 1
        · subst hi; exact hs
        · exact j3 i h1 (by omega)
      · rw [Buff.decodeColumns, if_pos hs, h.byteColumn hk]
        simp only
        have := orColumn_eq ds (8 * k + bits % 8) h64
        rw [show 8 * k + bits % 8 + 8 = 8 * (k + 1) + bits % 8 by omega] at this
        rw [this]
        exact j4
    · refine ⟨k + 1, Nat.le_refl _, fun _ => by omega, by omega, ?_⟩
      rw [Buff.decodeColumns, if_neg hs]

/-- Decoding down to `stop`: every record loses only bits below some `R ≤ stop`, `R` the same for all. -/
theorem Stored.decodeTo {buff : List Byte} {base : BitVec 64} {F bits : Nat} {ds : List Nat}
    (h : Stored buff base F bits ds) (o : FloatOps) (stop : Nat → Option Nat) {s : Nat}
    (hs : stop F = some s) :
    ∃ R, R ≤ s ∧ Buff.decodeTo o buff stop
      = .ok (ds.map (fun d => dequant o F (base + BitVec.ofNat 64 (high R d)))) := by
  have h64 : ∀ d ∈ ds, d < 2 ^ 64 := fun d hd =>
    Nat.lt_of_lt_of_le (h.fit d hd) (Nat.pow_le_pow_right (by decide) h.bits_le)
  unfold Buff.decodeTo
  rw [h.header]
  simp only [hs]
  by_cases h0 : bits = 0
  · refine ⟨0, Nat.zero_le _, ?_⟩
    rw [if_pos h0]
    have hz : ∀ d ∈ ds, d = 0 := by
      intro d hd
      have := h.fit d hd
      rw [h0] at this
      omega
    have : ds.map (fun d => dequant o F (base + BitVec.ofNat 64 (high 0 d)))
        = List.replicate ds.length (dequant o F base) := by
      rw [List.eq_replicate_iff]
      refine ⟨by simp, ?_⟩
      intro b hb
      rw [List.mem_map] at hb
      obtain ⟨d, hd, rfl⟩ := hb
      rw [hz d hd]
      simp [high]
    rw [this]
  · rw [if_neg h0]
    by_cases h8 : bits < 8
    · refine ⟨0, Nat.zero_le _, ?_⟩
      rw [if_pos h8]
      have hp := atRecord_zero bits ds.length
      have hm : bits % 8 = bits := Nat.mod_eq_of_lt h8
      obtain ⟨q, e1⟩ := h.readColumn (by omega) 0 (Nat.zero_le _) hp
      have hcs : colStart bits ds.length 0 = 20 := by
        unfold colStart; rw [Nat.div_eq_of_lt h8]; simp
      rw [hcs, hm, Nat.sub_zero, List.drop_zero] at e1
      rw [e1]
      simp only [List.map_map]
      congr 1
      apply List.map_congr_left
      intro d hd
      simp only [Function.comp, value]
      rw [Nat.mod_eq_of_lt (h.fit d hd), high_at_zero]
    · rw [if_neg h8]
      have hk : bits / 8 - 1 + 1 ≤ bits / 8 := by omega
      have hcs : colStart bits ds.length (bits / 8 - 1 + 1) = 20 := by
        unfold colStart
        rw [show bits / 8 - (bits / 8 - 1 + 1) = 0 by omega]
        simp
      have hcol := h.byteColumn hk
      rw [hcs] at hcol
      rw [hcol]
      simp only
      have hfirst : (column ds (8 * (bits / 8 - 1) + bits % 8)).map
          (fun x => ((flip x).toNat <<< (bits - 8)) % 2 ^ 64) = ds.map (high (8 * (bits / 8 - 1) + bits % 8)) := by
        unfold column
        rw [List.map_map]
        apply List.map_congr_left
        intro d hd
        have h1 := high_step (bits - 8) d (h64 d hd)
        rw [high_zero (by rw [show bits - 8 + 8 = bits by omega]; exact h.fit d hd), Nat.zero_or] at h1
        rw [show 8 * (bits / 8 - 1) + bits % 8 = bits - 8 by omega]
        exact h1
      rw [hfirst]
      obtain ⟨j, j1, j2, j3, j4⟩ := h.decodeColumns s (bits / 8 - 1) (by omega)
      rw [j4]
      simp only
      by_cases hR : 8 * j + bits % 8 = 0 ∨ 8 * j + bits % 8 ≤ s
      · refine ⟨8 * j + bits % 8, ?_, ?_⟩
        · omega
        · rw [if_pos hR, List.map_map]
          rfl
      · refine ⟨0, Nat.zero_le _, ?_⟩
        have hj0 : j = 0 := by
          rcases Nat.eq_zero_or_pos j with h' | h'
          · exact h'
          · exact absurd (Or.inr (j2 (by omega))) hR
        subst hj0
        rw [if_neg hR]
        simp only [Nat.mul_zero, Nat.zero_add] at hR ⊢
        have hp := atRecord_zero bits ds.length
        obtain ⟨q, e1⟩ := h.readColumn (by omega) 0 (Nat.zero_le _) hp
        rw [Nat.sub_zero, List.drop_zero] at e1
        rw [e1]
        simp only
        rw [List.zipWith_map_left, List.zipWith_map_right, List.zipWith_self, List.map_map]
        congr 1
        apply List.map_congr_left
        intro d _
        simp only [Function.comp, value]
        rw [high_or, high_at_zero]

end Ebi.Buff
