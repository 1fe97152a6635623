import Verif.BitReader
import Verif.Zigzag
import Verif.Query

/-!
# DeltaSprintz

`ebi/src/compressor/sprintz.rs` and `ebi/src/decoder/chunk_reader/sprintz.rs`.

`i64` arithmetic is modelled as wrapping (release build); `deltaOverflow` marks the inputs on which a
debug build panics. The float arithmetic of quantisation is the parameter `FloatOps`.
-/

namespace Ebi.Sprintz

open Ebi

/-! ## Compressor -/

/-- `(fp * scale as f64).round() as i64` (compressor/sprintz.rs:151-154). -/
def quantize (o : FloatOps) (scale : Nat) (fp : B64) : BitVec 64 :=
  o.toI64 (o.round (o.mul fp (o.ofNat scale)))

/-- The loop of `zigzag_delta_num_bits` (190-207). -/
def zigzagDeltas (previous : BitVec 64) : List (BitVec 64) → List Nat
  | [] => []
  | f :: fs => (zigzag (f - previous)).toNat :: zigzagDeltas f fs

/-- `accumulated_or` (193, 205). -/
def accOr (zs : List Nat) : Nat := zs.foldl (· ||| ·) 0

/-- `DeltaSprintzCompressorImpl` (20-29) without the timer; `buffer` is scratch space. -/
structure Comp where
  w : BitWriter
  buffer : List Nat
  scale : Nat
  totalBytesIn : Nat

/-- `new` (76-84). -/
def Comp.new (scale : Nat) : Comp := ⟨BitWriter.new, [], scale, 0⟩

/-- `reset` (119-124). -/
def Comp.reset (c : Comp) : Comp := { c with w := c.w.reset, buffer := [], totalBytesIn := 0 }

/-- `delta_sprintz_compress_impl` (142-177, with `zigzag_delta_num_bits` 181-216) on the quantised input; the first element is taken with
`unwrap` (190), so an empty chunk panics. -/
def writeQuantized (scale : Nat) (qs : List (BitVec 64)) (w : BitWriter) :
    Res (List Nat × BitWriter) :=
  match qs with
  | [] => .panic
  | q0 :: rest =>
    let buffer := zigzagDeltas q0 (q0 :: rest)
    let nb := 64 - lz64 (accOr buffer)
    let w := w.writeBits q0.toNat 64
    let w := w.writeBits scale 32
    let w := w.writeByte (BitVec.ofNat 8 nb)
    if nb = 0 then .ok (buffer, w)
    else .ok (buffer, buffer.foldl (fun w v => w.writeBits v nb) w)

/-- `compress` (88-101). -/
def Comp.compress (o : FloatOps) (c : Comp) (input : List B64) : Res Comp :=
  let c := c.reset
  match writeQuantized c.scale (input.map (quantize o c.scale)) c.w with
  | .ok (buffer, w) => .ok { c with buffer := buffer, w := w, totalBytesIn := c.totalBytesIn + 8 * input.length }
  | .err => .err
  | .panic => .panic

/-- `total_bytes_buffered` (107-109). -/
def Comp.totalBytesBuffered (c : Comp) : Nat := c.w.asSlice.length

/-- `prepare` (111) and `buffers` (113-117). -/
def Comp.prepare (c : Comp) : Comp := c
def Comp.buffers (c : Comp) : List Byte := c.w.asSlice

/-- Debug builds panic on `f - previous` (196) exactly when the difference leaves `i64`. -/
def deltaOverflow (previous : BitVec 64) : List (BitVec 64) → Bool
  | [] => false
  | f :: fs => (decide (f.toInt - previous.toInt < -2 ^ 63) || decide (2 ^ 63 ≤ f.toInt - previous.toInt))
      || deltaOverflow f fs

/-! ## Reader -/

/-- `DeltaSprintzReader` (decoder/chunk_reader/sprintz.rs:23-27). -/
structure Reader where
  br : BitReader
  numberOfRecords : Nat
  decompressed : Option (List B64)

/-- `DeltaSprintzReader::new` (30-47), given the chunk bytes. -/
def Reader.new (numberOfRecords : Nat) (chunk : List Byte) : Reader :=
  ⟨BitReader.new chunk, numberOfRecords, none⟩

/-- The 13 byte header, read at the start of every query and by the iterator (103-115, 276-285,
324-333, 362-371, 415-424, 459-468): initial value, scale (32 bits), bit width. -/
def readHeader (r : BitReader) : Option ((BitVec 64 × Nat × Nat) × BitReader) := do
  let (init, r) ← r.readBits 64
  let (scale, r) ← r.readBits 32
  let (nb, r) ← r.readByte
  pure ((BitVec.ofNat 64 init, scale, nb.toNat), r)

/-- `quantized as f64 / scale as f64`. -/
def dequantize (o : FloatOps) (scale : Nat) (q : BitVec 64) : B64 := o.div (o.ofI64 q) (o.ofNat scale)

/-- Reading one delta: `unzigzag(read_bits(nb)) + previous`. -/
def readDelta (nb : Nat) (prev : BitVec 64) (r : BitReader) : Option (BitVec 64 × BitReader) := do
  let (z, r) ← r.readBits nb
  pure (unzigzag (BitVec.ofNat 64 z) + prev, r)

/-- The iterator's `next` (484-503), drained; `k` records left. -/
def iterLoop (o : FloatOps) (scale nb : Nat) : Nat → BitVec 64 → BitReader →
    Option (List B64 × BitReader)
  | 0, _, r => some ([], r)
  | k + 1, prev, r =>
    if nb = 0 then do
      let (vs, r) ← iterLoop o scale nb k prev r
      pure (dequantize o scale prev :: vs, r)
    else do
      let (q, r) ← readDelta nb prev r
      let (vs, r) ← iterLoop o scale nb k q r
      pure (dequantize o scale q :: vs, r)

/-- `decompress` (64-70) = `default_decompress` (chunk_reader.rs:353-364): cached, otherwise the
iterator is created on the bit reader *where it stands*. On an error the reader stays consumed; the
error state is not modelled further. -/
def Reader.decompress (o : FloatOps) (r : Reader) : Res (List B64 × Reader) :=
  match r.decompressed with
  | some vs => .ok (vs, r)
  | none =>
    match readHeader r.br with
    | none => .err
    | some ((init, scale, nb), br) =>
      match iterLoop o scale nb r.numberOfRecords init br with
      | none => .err
      | some (vs, br) => .ok (vs, { r with br := br, decompressed := some vs })

/-- The scan of `filter` (137-154): `i` is the record index, `k` records left. -/
def filterLoop (p : Predicate (BitVec 64)) (off nb : Nat) : Nat → Nat → BitVec 64 → BitReader →
    Bitmap → Option (Bitmap × BitReader)
  | 0, _, _, r, bm => some (bm, r)
  | k + 1, i, prev, r, bm => do
    let (q, r) ← readDelta nb prev r
    filterLoop p off nb k (i + 1) q r
      (if p.eval i64Cmp q then Bitmap.insert ((off % 2 ^ 32 + i % 2 ^ 32) % 2 ^ 32) bm else bm)

/-- `filter` (91-162). The branch `number_of_records == 0` (127-133) is included: `all()` is then empty. -/
def Reader.filter (o : FloatOps) (r : Reader) (p : Predicate B64) (bm : Option Bitmap) (off : Nat) :
    Res (Bitmap × Reader) :=
  let r := { r with br := r.br.reset }
  match r.decompressed with
  | some vs => .ok (defaultFilter p bm [] off vs, r)
  | none =>
    match readHeader r.br with
    | none => .err
    | some ((init, scale, nb), br) =>
      let pe := p.map (quantize o scale)
      if r.numberOfRecords = 0 then .ok ([], { r with br := br })
      else
        match filterLoop pe off nb r.numberOfRecords 0 init br [] with
        | none => .err
        | some (res, br) =>
          .ok (match bm with
            | some b => Bitmap.inter res b
            | none => res, { r with br := br })

/-- `materialize` (164-174). -/
def Reader.materialize (o : FloatOps) (r : Reader) (bm : Option Bitmap) (off : Nat) :
    Res (List B64 × Reader) :=
  match ({ r with br := r.br.reset } : Reader).decompress o with
  | .ok (vs, r) => .ok (defaultMaterialize bm off vs, r)
  | .err => .err
  | .panic => .panic

/-- `filter_materialize`: the trait default (query.rs:222-231), no reset of the bit reader. -/
def Reader.filterMaterialize (o : FloatOps) (r : Reader) (p : Predicate B64) (bm : Option Bitmap)
    (off : Nat) : Res (List B64 × Reader) :=
  match r.decompress o with
  | .ok (vs, r) => .ok (defaultFilterMaterialize p bm off vs, r)
  | .err => .err
  | .panic => .panic

/-- Loops of `sum_without_bitmask` (336-348) and `min_max_without_bitmask` (427-443). -/
def foldLoop {A : Type} (f : A → BitVec 64 → A) (nb : Nat) : Nat → BitVec 64 → BitReader → A →
    Option (A × BitReader)
  | 0, _, r, acc => some (acc, r)
  | k + 1, prev, r, acc => do
    let (q, r) ← readDelta nb prev r
    foldLoop f nb k q r (f acc q)

/-- Loops of `sum` (288-312) and `min_max` (374-403): `next :: more` is what the bitmask iterator
still has to give. -/
def scanLoop {A : Type} (f : A → BitVec 64 → A) (off nb : Nat) : Nat → Nat → BitVec 64 → BitReader →
    A → Nat → List Nat → Option (A × BitReader)
  | 0, _, _, r, acc, _, _ => some (acc, r)
  | k + 1, i, prev, r, acc, next, more => do
    let (q, r) ← readDelta nb prev r
    if (i % 2 ^ 32 + off % 2 ^ 32) % 2 ^ 32 ≠ next then scanLoop f off nb k (i + 1) q r acc next more
    else
      match more with
      | n :: more => scanLoop f off nb k (i + 1) q r (f acc q) n more
      | [] => some (f acc q, r)

/-- `bitmask.iter().filter(|&x| x >= off && x < off + n)` (190-193, 220-223, 250-253), in `u32`
(the addition wraps in a release build). -/
def inChunk (off n : Nat) (b : Bitmap) : List Nat :=
  b.filter (fun x => decide (off % 2 ^ 32 ≤ x) && decide (x < (off % 2 ^ 32 + n % 2 ^ 32) % 2 ^ 32))

/-- `i64::min` / `i64::max`. -/
def imin (a b : BitVec 64) : BitVec 64 := if b.slt a then b else a
def imax (a b : BitVec 64) : BitVec 64 := if a.slt b then b else a

def i64Max : BitVec 64 := 0x7fffffffffffffff#64
def i64Min : BitVec 64 := 0x8000000000000000#64

/-- Body shared by `sum`/`sum_without_bitmask` and `min_max`/`min_max_without_bitmask`
(267-315, 317-351, 353-406, 408-446). -/
def Reader.aggregate (o : FloatOps) (f : BitVec 64 → BitVec 64 → BitVec 64) (init : BitVec 64)
    (r : Reader) (bm : Option Bitmap) (off : Nat) : Res (B64 × Reader) :=
  match readHeader r.br.reset with
  | none => .err
  | some ((q0, scale, nb), br) =>
    match bm with
    | none =>
      match foldLoop f nb r.numberOfRecords q0 br init with
      | none => .err
      | some (s, br) => .ok (dequantize o scale s, { r with br := br })
    | some b =>
      match inChunk off r.numberOfRecords b with
      | [] => .ok (nanBits, { r with br := br })
      | n :: more =>
        match scanLoop f off nb r.numberOfRecords 0 q0 br init n more with
        | none => .err
        | some (s, br) => .ok (dequantize o scale s, { r with br := br })

/-- `sum` (236-264). -/
def Reader.sum (o : FloatOps) (r : Reader) (bm : Option Bitmap) (off : Nat) : Res (B64 × Reader) :=
  match r.decompressed with
  | some vs => .ok (defaultSum o bm off vs, r)
  | none =>
    if bm = some [] then .ok (0#64, r)
    else r.aggregate o (· + ·) 0#64 bm off

/-- `max` (176-204). -/
def Reader.max (o : FloatOps) (r : Reader) (bm : Option Bitmap) (off : Nat) : Res (B64 × Reader) :=
  match r.decompressed with
  | some vs => .ok (defaultMax o bm off vs, r)
  | none =>
    if bm = some [] then .ok (nanBits, r)
    else r.aggregate o imax i64Min bm off

/-- `min` (206-234). Note `default_max` in the cached case. -/
def Reader.min (o : FloatOps) (r : Reader) (bm : Option Bitmap) (off : Nat) : Res (B64 × Reader) :=
  match r.decompressed with
  | some vs => .ok (defaultMax o bm off vs, r)
  | none =>
    if bm = some [] then .ok (nanBits, r)
    else r.aggregate o imin i64Max bm off

/-! ## Stored bits -/

/-- The bits of the delta section. -/
def deltaBits (nb : Nat) (zs : List Nat) : List Bool := zs.flatMap (fun z => natBits z nb)

/-- Bit width chosen for `qs`. -/
def width (qs : List (BitVec 64)) : Nat := 64 - lz64 (accOr (zigzagDeltas (qs.headD 0) qs))

/-- The bits of a whole chunk. -/
def chunkBits (scale : Nat) (qs : List (BitVec 64)) : List Bool :=
  natBits (qs.headD 0).toNat 64 ++ (natBits scale 32 ++ (natBits (width qs) 8 ++
    deltaBits (width qs) (zigzagDeltas (qs.headD 0) qs)))

theorem zigzagDeltas_lt (p : BitVec 64) (qs : List (BitVec 64)) : ∀ z ∈ zigzagDeltas p qs, z < 2 ^ 64 := by
  induction qs generalizing p with
  | nil => simp [zigzagDeltas]
  | cons q qs ih =>
    intro z hz
    rw [zigzagDeltas, List.mem_cons] at hz
    rcases hz with rfl | hz
    · exact (zigzag _).isLt
    · exact ih q z hz

theorem foldl_or_ge (zs : List Nat) (a : Nat) : a ≤ zs.foldl (· ||| ·) a := by
  induction zs generalizing a with
  | nil => simp
  | cons z zs ih => exact Nat.le_trans Nat.left_le_or (ih _)

theorem le_accOr (zs : List Nat) (a z : Nat) (h : z ∈ zs) : z ≤ zs.foldl (· ||| ·) a := by
  induction zs generalizing a with
  | nil => cases h
  | cons y ys ih =>
    rw [List.mem_cons] at h
    rcases h with rfl | h
    · exact Nat.le_trans Nat.right_le_or (foldl_or_ge ys _)
    · exact ih _ h

theorem foldl_or_lt (zs : List Nat) (a : Nat) (ha : a < 2 ^ 64) (h : ∀ z ∈ zs, z < 2 ^ 64) :
    zs.foldl (· ||| ·) a < 2 ^ 64 := by
  induction zs generalizing a with
  | nil => exact ha
  | cons y ys ih =>
    exact ih _ (Nat.or_lt_two_pow ha (h y (by simp))) (fun z hz => h z (by simp [hz]))

theorem testBit_foldl_or (zs : List Nat) (a i : Nat) (h : (zs.foldl (· ||| ·) a).testBit i = true) :
    a.testBit i = true ∨ ∃ z ∈ zs, z.testBit i = true := by
  induction zs generalizing a with
  | nil => exact Or.inl h
  | cons y ys ih =>
    rcases ih _ h with h1 | ⟨z, h1, h2⟩
    · rw [Nat.testBit_or, Bool.or_eq_true] at h1
      rcases h1 with h1 | h1
      · exact Or.inl h1
      · exact Or.inr ⟨y, by simp, h1⟩
    · exact Or.inr ⟨z, by simp [h1], h2⟩

/-- The width is the least possible. -/
theorem width_least (qs : List (BitVec 64)) (h : width qs ≠ 0) :
    ∃ z ∈ zigzagDeltas (qs.headD 0) qs, 2 ^ (width qs - 1) ≤ z := by
  have h1 := foldl_or_lt (zigzagDeltas (qs.headD 0) qs) 0 (by decide) (zigzagDeltas_lt _ qs)
  unfold width at h ⊢
  have h0 : accOr (zigzagDeltas (qs.headD 0) qs) ≠ 0 := by
    intro hc
    rw [hc] at h
    exact h rfl
  have hl : lz64 (accOr (zigzagDeltas (qs.headD 0) qs))
      = 63 - (accOr (zigzagDeltas (qs.headD 0) qs)).log2 := by
    unfold lz64; rw [if_neg h0]
  have hlog : (accOr (zigzagDeltas (qs.headD 0) qs)).log2 < 64 := (Nat.log2_lt h0).2 h1
  have ht : (accOr (zigzagDeltas (qs.headD 0) qs)).testBit
      (accOr (zigzagDeltas (qs.headD 0) qs)).log2 = true := by
    rw [Nat.testBit_eq_decide_div_mod_eq, decide_eq_true_eq]
    have h2 := Nat.log2_self_le h0
    have h3 := @Nat.lt_log2_self (accOr (zigzagDeltas (qs.headD 0) qs))
    have h4 : accOr (zigzagDeltas (qs.headD 0) qs) /
        2 ^ (accOr (zigzagDeltas (qs.headD 0) qs)).log2 = 1 := by
      apply Nat.div_eq_of_lt_le
      · omega
      · rw [Nat.pow_succ] at h3; omega
    rw [h4]
  rcases testBit_foldl_or _ 0 _ ht with hz | ⟨z, hz, hb⟩
  · simp at hz
  · refine ⟨z, hz, ?_⟩
    rw [hl, show 64 - (63 - (accOr (zigzagDeltas (qs.headD 0) qs)).log2) - 1
      = (accOr (zigzagDeltas (qs.headD 0) qs)).log2 by omega]
    exact Nat.ge_two_pow_of_testBit hb

theorem width_le (qs : List (BitVec 64)) : width qs ≤ 64 := Nat.sub_le _ _

/-- No delta is truncated by the announced width. -/
theorem lt_width (qs : List (BitVec 64)) : ∀ z ∈ zigzagDeltas (qs.headD 0) qs, z < 2 ^ width qs := by
  intro z hz
  have h1 := foldl_or_lt (zigzagDeltas (qs.headD 0) qs) 0 (by decide) (zigzagDeltas_lt _ qs)
  have h2 := lt_of_lz64 h1
  exact Nat.lt_of_le_of_lt (le_accOr _ 0 z hz) h2

theorem rep_writeDeltas {w : BitWriter} {bs : List Bool} (h : w.Rep bs) (nb : Nat) (zs : List Nat) :
    (zs.foldl (fun w v => w.writeBits v nb) w).Rep (bs ++ deltaBits nb zs) := by
  induction zs generalizing w bs with
  | nil => simpa [deltaBits] using h
  | cons z zs ih =>
    have := ih (BitWriter.rep_writeBits h z nb)
    simpa [deltaBits] using this

theorem deltaBits_zero (zs : List Nat) : deltaBits 0 zs = [] := by simp [deltaBits]

theorem writeQuantized_rep {w : BitWriter} (h : w.Rep []) (scale : Nat) (qs : List (BitVec 64))
    (hne : qs ≠ []) :
    ∃ w', writeQuantized scale qs w = .ok (zigzagDeltas (qs.headD 0) qs, w') ∧
      w'.Rep (chunkBits scale qs) := by
  cases qs with
  | nil => exact absurd rfl hne
  | cons q0 rest =>
    have h1 := BitWriter.rep_writeBits h q0.toNat 64
    have h2 := BitWriter.rep_writeBits h1 scale 32
    have h3 := BitWriter.rep_writeByte h2 (BitVec.ofNat 8 (width (q0 :: rest)))
    have hb : byteBits (BitVec.ofNat 8 (width (q0 :: rest))) = natBits (width (q0 :: rest)) 8 := by
      simp only [byteBits, BitVec.toNat_ofNat, natBits_mod]
    rw [hb] at h3
    simp only [List.nil_append, List.append_assoc] at h3
    unfold writeQuantized
    simp only
    change ∃ w', (if width (q0 :: rest) = 0 then _ else _) = _ ∧ _
    split
    · rename_i h0
      refine ⟨_, rfl, ?_⟩
      unfold chunkBits
      rw [h0] at h3
      rw [h0, deltaBits_zero, List.append_nil]
      have e : BitVec.ofNat 8 (64 - lz64 (accOr (zigzagDeltas q0 (q0 :: rest)))) = BitVec.ofNat 8 0 := by
        rw [show 64 - lz64 (accOr (zigzagDeltas q0 (q0 :: rest))) = 0 from h0]
      rw [e]
      exact h3
    · refine ⟨_, rfl, ?_⟩
      have := rep_writeDeltas h3 (width (q0 :: rest)) (zigzagDeltas q0 (q0 :: rest))
      unfold chunkBits
      simp only [List.append_assoc] at this
      exact this

/-! ## Reading back -/

theorem readHeader_at {r : BitReader} {scale nb : Nat} {q0 : BitVec 64} {t : List Bool}
    (h : r.At (natBits q0.toNat 64 ++ (natBits scale 32 ++ (natBits nb 8 ++ t)))) (hnb : nb ≤ 64) :
    readHeader r = some ((q0, scale % 2 ^ 32, nb), r.adv 104) ∧ (r.adv 104).At t := by
  obtain ⟨a1, b1⟩ := h.readBits_lt (by omega) q0.isLt
  obtain ⟨a2, b2⟩ := b1.readBits (by omega)
  obtain ⟨a3, b3⟩ := b2.readByte (by omega)
  rw [BitReader.adv_adv, BitReader.adv_adv] at b3
  refine ⟨?_, b3⟩
  unfold readHeader
  simp only [a1, a2, a3, Option.bind_eq_bind, Option.bind_some, Option.pure_def]
  rw [BitReader.adv_adv, BitReader.adv_adv]
  have e1 : (BitVec.ofNat 8 nb).toNat = nb := by simp; omega
  have e2 : BitVec.ofNat 64 q0.toNat = q0 := by simp
  rw [e1, e2]

theorem readDelta_at {r : BitReader} {nb : Nat} {q prev : BitVec 64} {t : List Bool}
    (h : r.At (natBits (zigzag (q - prev)).toNat nb ++ t)) (hnb : nb ≤ 64)
    (hz : (zigzag (q - prev)).toNat < 2 ^ nb) :
    readDelta nb prev r = some (q, r.adv nb) ∧ (r.adv nb).At t := by
  obtain ⟨a1, b1⟩ := h.readBits_lt hnb hz
  refine ⟨?_, b1⟩
  unfold readDelta
  simp only [a1, Option.bind_eq_bind, Option.bind_some, Option.pure_def]
  have e2 : BitVec.ofNat 64 (zigzag (q - prev)).toNat = zigzag (q - prev) := by simp
  rw [e2, unzigzag_zigzag, BitVec.sub_add_cancel]

theorem foldLoop_at {A : Type} (f : A → BitVec 64 → A) {nb : Nat} (hnb : nb ≤ 64)
    (qs : List (BitVec 64)) (prev : BitVec 64) {r : BitReader} {t : List Bool} (acc : A)
    (h : r.At (deltaBits nb (zigzagDeltas prev qs) ++ t))
    (hz : ∀ z ∈ zigzagDeltas prev qs, z < 2 ^ nb) :
    ∃ r', foldLoop f nb qs.length prev r acc = some (qs.foldl f acc, r') ∧ r'.buf = r.buf := by
  induction qs generalizing prev r acc with
  | nil => exact ⟨r, rfl, rfl⟩
  | cons q qs ih =>
    simp only [zigzagDeltas, deltaBits, List.flatMap_cons, List.append_assoc] at h
    obtain ⟨a1, b1⟩ := readDelta_at h hnb (hz _ (by simp [zigzagDeltas]))
    obtain ⟨r', h1, h2⟩ := ih q (f acc q) b1 (fun z hzz => hz z (by simp [zigzagDeltas, hzz]))
    refine ⟨r', ?_, h2⟩
    simp [foldLoop, a1, h1]

theorem filterLoop_at (p : Predicate (BitVec 64)) {off nb : Nat} (hnb : nb ≤ 64)
    (qs : List (BitVec 64)) (prev : BitVec 64) {r : BitReader} {t : List Bool} (i : Nat) (bm : Bitmap)
    (h : r.At (deltaBits nb (zigzagDeltas prev qs) ++ t))
    (hz : ∀ z ∈ zigzagDeltas prev qs, z < 2 ^ nb) :
    ∃ res r', filterLoop p off nb qs.length i prev r bm = some (res, r') ∧ r'.buf = r.buf ∧
      (Bitmap.WF bm → Bitmap.WF res) ∧
      ∀ x, x ∈ res ↔ x ∈ bm ∨
        ∃ q j, (q, j) ∈ qs.zipIdx (off + i) ∧ p.eval i64Cmp q = true ∧ x = j % 2 ^ 32 := by
  induction qs generalizing prev r i bm with
  | nil => exact ⟨bm, r, rfl, rfl, id, by simp⟩
  | cons q qs ih =>
    simp only [zigzagDeltas, deltaBits, List.flatMap_cons, List.append_assoc] at h
    obtain ⟨a1, b1⟩ := readDelta_at h hnb (hz _ (by simp [zigzagDeltas]))
    obtain ⟨res, r', h1, h2, h3, h4⟩ := ih q (i + 1)
      (if p.eval i64Cmp q then Bitmap.insert ((off % 2 ^ 32 + i % 2 ^ 32) % 2 ^ 32) bm else bm) b1
      (fun z hzz => hz z (by simp [zigzagDeltas, hzz]))
    refine ⟨res, r', ?_, h2, ?_, ?_⟩
    · simp only [List.length_cons, filterLoop, a1, Option.bind_eq_bind, Option.bind_some]
      exact h1
    · intro hw
      apply h3
      split
      · exact Bitmap.insert_wf hw (Nat.mod_lt _ (by decide))
      · exact hw
    · intro x
      rw [h4 x]
      have e : (off % 2 ^ 32 + i % 2 ^ 32) % 2 ^ 32 = (off + i) % 2 ^ 32 := by omega
      rw [e]
      simp only [List.zipIdx_cons, List.mem_cons, Prod.mk.injEq, Nat.add_assoc]
      by_cases hp : p.eval i64Cmp q = true
      · rw [if_pos hp, Bitmap.mem_insert]
        constructor
        · rintro ((h | h) | ⟨w, j, h, h'⟩)
          · exact Or.inr ⟨q, off + i, Or.inl ⟨rfl, rfl⟩, hp, h⟩
          · exact Or.inl h
          · exact Or.inr ⟨w, j, Or.inr h, h'⟩
        · rintro (h | ⟨w, j, h | h, h', h3⟩)
          · exact Or.inl (Or.inr h)
          · obtain ⟨rfl, rfl⟩ := h
            exact Or.inl (Or.inl h3)
          · exact Or.inr ⟨w, j, h, h', h3⟩
      · rw [if_neg hp]
        constructor
        · rintro (h | ⟨w, j, h, h'⟩)
          · exact Or.inl h
          · exact Or.inr ⟨w, j, Or.inr h, h'⟩
        · rintro (h | ⟨w, j, h | h, h', h3⟩)
          · exact Or.inl h
          · obtain ⟨rfl, rfl⟩ := h
            exact absurd h' hp
          · exact Or.inr ⟨w, j, h, h', h3⟩

/-- The values of `qs` (numbered from `i`) whose number is in `sel`. -/
def pick (sel : List Nat) (i : Nat) (qs : List (BitVec 64)) : List (BitVec 64) :=
  ((qs.zipIdx i).filter (fun p => sel.contains p.2)).map Prod.fst

theorem pick_cons (sel : List Nat) (i : Nat) (q : BitVec 64) (qs : List (BitVec 64)) :
    pick sel i (q :: qs) = if sel.contains i then q :: pick sel (i + 1) qs
      else pick sel (i + 1) qs := by
  unfold pick
  rw [List.zipIdx_cons, List.filter_cons]
  split <;> rfl

theorem pick_skip (n : Nat) (sel : List Nat) (i : Nat) (qs : List (BitVec 64)) (h : n < i) :
    pick (n :: sel) i qs = pick sel i qs := by
  induction qs generalizing i with
  | nil => rfl
  | cons q qs ih =>
    rw [pick_cons, pick_cons, ih (i + 1) (by omega)]
    have : i ≠ n := by omega
    simp [this]

theorem pick_nil (i : Nat) (qs : List (BitVec 64)) : pick [] i qs = [] := by
  simp [pick]

theorem scanLoop_at {A : Type} (f : A → BitVec 64 → A) {off nb : Nat} (hnb : nb ≤ 64)
    (qs : List (BitVec 64)) (prev : BitVec 64) {r : BitReader} {t : List Bool} (i : Nat) (acc : A)
    (next : Nat) (more : List Nat)
    (h : r.At (deltaBits nb (zigzagDeltas prev qs) ++ t))
    (hz : ∀ z ∈ zigzagDeltas prev qs, z < 2 ^ nb)
    (hoff : off + i + qs.length < 2 ^ 32)
    (hs : (next :: more).Pairwise (· < ·)) (hge : off + i ≤ next) :
    ∃ r', scanLoop f off nb qs.length i prev r acc next more
        = some ((pick (next :: more) (off + i) qs).foldl f acc, r') ∧ r'.buf = r.buf := by
  induction qs generalizing prev r i acc next more with
  | nil => exact ⟨r, rfl, rfl⟩
  | cons q qs ih =>
    simp only [List.length_cons] at hoff
    simp only [zigzagDeltas, deltaBits, List.flatMap_cons, List.append_assoc] at h
    obtain ⟨a1, b1⟩ := readDelta_at h hnb (hz _ (by simp [zigzagDeltas]))
    have hz' : ∀ z ∈ zigzagDeltas q qs, z < 2 ^ nb :=
      fun z hzz => hz z (by simp [zigzagDeltas, hzz])
    have e : (i % 2 ^ 32 + off % 2 ^ 32) % 2 ^ 32 = off + i := by omega
    rw [List.pairwise_cons] at hs
    by_cases hn : off + i = next
    · subst hn
      cases more with
      | nil =>
        refine ⟨r.adv nb, ?_, rfl⟩
        have hp : pick [off + i] (off + i) (q :: qs) = [q] := by
          rw [pick_cons, pick_skip _ _ _ _ (by omega), pick_nil]
          simp
        rw [hp]
        simp [scanLoop, a1, e]
      | cons n more =>
        have hlt := hs.1 n (by simp)
        obtain ⟨r', h1, h2⟩ := ih q (i + 1) (f acc q) n more b1 hz' (by omega) hs.2 (by omega)
        refine ⟨r', ?_, h2⟩
        have hp : pick ((off + i) :: n :: more) (off + i) (q :: qs)
            = q :: pick (n :: more) (off + (i + 1)) qs := by
          rw [pick_cons, pick_skip _ _ _ _ (by omega)]
          simp [Nat.add_assoc]
        rw [hp]
        simp [scanLoop, a1, e, h1]
    · obtain ⟨r', h1, h2⟩ := ih q (i + 1) acc next more b1 hz' (by omega)
        (List.pairwise_cons.2 hs) (by omega)
      refine ⟨r', ?_, h2⟩
      have hnm : ¬ (next :: more).contains (off + i) = true := by
        simp only [List.contains_iff_mem, List.mem_cons]
        rintro (h | h)
        · exact hn h
        · have := hs.1 _ h; omega
      have hp : pick (next :: more) (off + i) (q :: qs) = pick (next :: more) (off + (i + 1)) qs := by
        rw [pick_cons, if_neg hnm, Nat.add_assoc]
      rw [hp]
      simp [scanLoop, a1, e, hn, h1]

theorem iterLoop_at (o : FloatOps) (scale : Nat) {nb : Nat} (hnb : nb ≤ 64)
    (qs : List (BitVec 64)) (prev : BitVec 64) {r : BitReader} {t : List Bool}
    (h : r.At (deltaBits nb (zigzagDeltas prev qs) ++ t))
    (hz : ∀ z ∈ zigzagDeltas prev qs, z < 2 ^ nb) :
    ∃ r', iterLoop o scale nb qs.length prev r = some (qs.map (dequantize o scale), r') ∧
      r'.buf = r.buf ∧ r'.At t := by
  induction qs generalizing prev r with
  | nil => exact ⟨r, rfl, rfl, by simpa [zigzagDeltas, deltaBits] using h⟩
  | cons q qs ih =>
    simp only [zigzagDeltas, deltaBits, List.flatMap_cons, List.append_assoc] at h
    have hz0 := hz (zigzag (q - prev)).toNat (by simp [zigzagDeltas])
    have hz' : ∀ z ∈ zigzagDeltas q qs, z < 2 ^ nb :=
      fun z hzz => hz z (by simp [zigzagDeltas, hzz])
    by_cases h0 : nb = 0
    · subst h0
      have hq : q = prev := by
        have h1 : zigzag (q - prev) = 0#64 := by
          apply BitVec.eq_of_toNat_eq
          simp at hz0 ⊢; omega
        have h2 := unzigzag_zigzag (q - prev)
        rw [h1] at h2
        have h3 : unzigzag 0#64 = 0#64 := by decide
        rw [h3] at h2
        have h4 := BitVec.sub_add_cancel q prev
        rw [← h2] at h4
        simpa using h4.symm
      subst hq
      obtain ⟨r', h1, h2⟩ := ih q (r := r) (by simpa [deltaBits] using h) hz'
      refine ⟨r', ?_, h2⟩
      simp [iterLoop, h1]
    · obtain ⟨a1, b1⟩ := readDelta_at h hnb hz0
      obtain ⟨r', h1, h2⟩ := ih q b1 hz'
      refine ⟨r', ?_, h2⟩
      simp [iterLoop, h0, a1, h1]


/-! ## Readers over a stored chunk -/

/-- The reader holds the bytes of the chunk written for the quantised values `qs`; its cursor may be
anywhere. -/
structure Stored (r : Reader) (scale : Nat) (qs : List (BitVec 64)) : Prop where
  records : r.numberOfRecords = qs.length
  bits : ∃ pad, bytesBits r.br.buf = chunkBits scale qs ++ pad

theorem compress_ok (o : FloatOps) (c : Comp) (vs : List B64) (h : vs ≠ []) :
    ∃ c', c.compress o vs = .ok c' ∧ c'.w.Rep (chunkBits c.scale (vs.map (quantize o c.scale))) ∧
      c'.totalBytesIn = 8 * vs.length ∧ c'.scale = c.scale := by
  obtain ⟨w', h1, h2⟩ := writeQuantized_rep (BitWriter.rep_reset c.w) c.scale
    (vs.map (quantize o c.scale)) (by simpa using h)
  refine ⟨⟨w', zigzagDeltas ((vs.map (quantize o c.scale)).headD 0) (vs.map (quantize o c.scale)),
    c.scale, 0 + 8 * vs.length⟩, ?_, h2, ?_, rfl⟩
  · unfold Comp.compress
    simp only [Comp.reset]
    rw [h1]
  · simp

theorem deltaBits_length (nb : Nat) (zs : List Nat) : (deltaBits nb zs).length = zs.length * nb := by
  induction zs with
  | nil => simp [deltaBits]
  | cons z zs ih =>
    simp only [deltaBits, List.flatMap_cons, List.length_append, natBits_length, List.length_cons] at ih ⊢
    rw [ih, Nat.succ_mul]; omega

theorem zigzagDeltas_length (p : BitVec 64) (qs : List (BitVec 64)) :
    (zigzagDeltas p qs).length = qs.length := by
  induction qs generalizing p with
  | nil => rfl
  | cons q qs ih => simp [zigzagDeltas, ih]

theorem chunkBits_length (scale : Nat) (qs : List (BitVec 64)) :
    (chunkBits scale qs).length = 104 + qs.length * width qs := by
  simp [chunkBits, deltaBits_length, zigzagDeltas_length]; omega

/-- Byte 12 of the chunk is the width. -/
theorem byte12 {buf : List Byte} {scale : Nat} {qs : List (BitVec 64)} {pad : List Bool}
    (h : bytesBits buf = chunkBits scale qs ++ pad) : buf[12]? = some (BitVec.ofNat 8 (width qs)) := by
  have hl := congrArg List.length h
  rw [List.length_append, chunkBits_length, bytesBits_length] at hl
  have hlt : 12 < buf.length := by omega
  rw [List.getElem?_eq_getElem hlt]
  congr 1
  apply byteBits_inj
  have h1 : (bytesBits buf).drop (8 * 12) = bytesBits (buf.drop 12) := by
    have := BitReader.drop_bytesBits buf 12 0
    simpa using this
  rw [List.drop_eq_getElem_cons hlt, bytesBits_cons, h] at h1
  have h2 := congrArg (List.take 8) h1
  rw [List.take_left' (by simp)] at h2
  rw [← h2]
  unfold chunkBits
  rw [← List.append_assoc, List.append_assoc, List.drop_left' (by simp), List.append_assoc,
    List.take_left' (by simp), byteBits]
  simp only [BitVec.toNat_ofNat, natBits_mod]

theorem stored_of_rep {w : BitWriter} {scale : Nat} {qs : List (BitVec 64)}
    (h : w.Rep (chunkBits scale qs)) : Stored (Reader.new qs.length w.asSlice) scale qs :=
  ⟨rfl, _, h.2.2⟩

theorem Stored.header {r : Reader} {scale : Nat} {qs : List (BitVec 64)} (h : Stored r scale qs) :
    ∃ pad, readHeader r.br.reset
        = some ((qs.headD 0, scale % 2 ^ 32, width qs), r.br.reset.adv 104) ∧
      (r.br.reset.adv 104).At (deltaBits (width qs) (zigzagDeltas (qs.headD 0) qs) ++ pad) := by
  obtain ⟨pad, hp⟩ := h.bits
  have hat : r.br.reset.At (bytesBits r.br.buf) := ⟨BitReader.wf_reset _, BitReader.rest_reset _⟩
  rw [hp, chunkBits] at hat
  simp only [List.append_assoc] at hat
  obtain ⟨h1, h2⟩ := readHeader_at hat (width_le qs)
  exact ⟨pad, h1, h2⟩

theorem Stored.of_buf {r r' : Reader} {scale : Nat} {qs : List (BitVec 64)} (h : Stored r scale qs)
    (hn : r'.numberOfRecords = r.numberOfRecords) (hb : r'.br.buf = r.br.buf) : Stored r' scale qs :=
  ⟨hn.trans h.records, hb ▸ h.bits⟩

theorem Stored.decompress {r : Reader} {scale : Nat} {qs : List (BitVec 64)} (h : Stored r scale qs)
    (hc : r.decompressed = none) (hr : r.br = r.br.reset) (o : FloatOps) :
    ∃ r', r.decompress o = .ok (qs.map (dequantize o (scale % 2 ^ 32)), r') ∧ Stored r' scale qs ∧
      r'.decompressed = some (qs.map (dequantize o (scale % 2 ^ 32))) := by
  obtain ⟨pad, h1, h2⟩ := h.header
  obtain ⟨br', h3, h4, -⟩ := iterLoop_at o (scale % 2 ^ 32) (width_le qs) qs (qs.headD 0) h2 (lt_width qs)
  refine ⟨{ r with br := br', decompressed := some (qs.map (dequantize o (scale % 2 ^ 32))) }, ?_, ?_, rfl⟩
  · unfold Reader.decompress
    rw [hc, hr]
    simp only [h1, h.records, h3]
  · exact h.of_buf rfl h4

theorem Stored.materialize {r : Reader} {scale : Nat} {qs : List (BitVec 64)} (h : Stored r scale qs)
    (hc : r.decompressed = none) (o : FloatOps) (bm : Option Bitmap) (off : Nat) :
    ∃ r', r.materialize o bm off
        = .ok (defaultMaterialize bm off (qs.map (dequantize o (scale % 2 ^ 32))), r') ∧
      Stored r' scale qs ∧ r'.decompressed = some (qs.map (dequantize o (scale % 2 ^ 32))) := by
  have h0 : Stored { r with br := r.br.reset } scale qs := h.of_buf rfl rfl
  obtain ⟨r', h1, h2, h3⟩ := h0.decompress hc rfl o
  refine ⟨r', ?_, h2, h3⟩
  unfold Reader.materialize
  rw [h1]

theorem Stored.filter {r : Reader} {scale : Nat} {qs : List (BitVec 64)} (h : Stored r scale qs)
    (hc : r.decompressed = none) (hne : qs ≠ []) (o : FloatOps) (p : Predicate B64)
    (bm : Option Bitmap) (off : Nat) :
    ∃ res r', r.filter o p bm off = .ok (res, r') ∧ Stored r' scale qs ∧ r'.decompressed = none ∧
      Bitmap.WF res ∧
      ∀ x, x ∈ res ↔ (∃ q j, (q, j) ∈ qs.zipIdx off ∧
        (p.map (quantize o (scale % 2 ^ 32))).eval i64Cmp q = true ∧ x = j % 2 ^ 32) ∧
        (∀ b, bm = some b → x ∈ b) := by
  obtain ⟨pad, h1, h2⟩ := h.header
  obtain ⟨res, br', h3, h4, h5, h6⟩ := filterLoop_at (p.map (quantize o (scale % 2 ^ 32)))
    (off := off) (width_le qs) qs (qs.headD 0) 0 [] h2 (lt_width qs)
  have hz : qs.length ≠ 0 := by simpa using hne
  simp only [List.not_mem_nil, false_or, Nat.add_zero] at h6
  refine ⟨match bm with | some b => Bitmap.inter res b | none => res, { r with br := br' }, ?_,
    h.of_buf rfl h4, hc, ?_, ?_⟩
  · unfold Reader.filter
    simp only [hc, h1, h.records, if_neg hz, h3]
  · cases bm with
    | none => exact h5 wf_nil
    | some b => exact Bitmap.inter_wf b (h5 wf_nil)
  · intro x
    cases bm with
    | none => simp [h6]
    | some b => simp [Bitmap.mem_inter, h6]

/-- The stored integers of the selected records. -/
def sel (bm : Option Bitmap) (off : Nat) (qs : List (BitVec 64)) : List (BitVec 64) :=
  match bm with
  | none => qs
  | some b => pick b off qs

theorem pick_inChunk (b : Bitmap) (off : Nat) (qs : List (BitVec 64)) (h : off + qs.length < 2 ^ 32) :
    pick (inChunk off qs.length b) off qs = pick b off qs := by
  unfold pick
  congr 1
  apply List.filter_congr
  rintro ⟨q, j⟩ hj
  have h1 := List.le_snd_of_mem_zipIdx hj
  have h2 := List.snd_lt_add_of_mem_zipIdx hj
  simp only at h1 h2 ⊢
  rw [Bool.eq_iff_iff, List.contains_iff_mem, List.contains_iff_mem, inChunk, List.mem_filter]
  constructor
  · exact fun h => h.1
  · intro hb
    refine ⟨hb, ?_⟩
    rw [Bool.and_eq_true, decide_eq_true_eq, decide_eq_true_eq]
    omega

theorem inChunk_nil_iff (b : Bitmap) (off : Nat) (qs : List (BitVec 64))
    (h : off + qs.length < 2 ^ 32) : inChunk off qs.length b = [] ↔ pick b off qs = [] := by
  constructor
  · intro h1
    rw [← pick_inChunk b off qs h, h1, pick_nil]
  · intro h1
    rw [inChunk, List.filter_eq_nil_iff]
    intro x hx hcon
    rw [Bool.and_eq_true, decide_eq_true_eq, decide_eq_true_eq] at hcon
    have hlt : x - off < qs.length := by omega
    have hm : (qs[x - off], x) ∈ qs.zipIdx off := by
      rw [List.mk_mem_zipIdx_iff_le_and_getElem?_sub]
      exact ⟨by omega, List.getElem?_eq_getElem hlt⟩
    have : qs[x - off] ∈ pick b off qs := by
      rw [pick, List.mem_map]
      exact ⟨_, List.mem_filter.2 ⟨hm, by simpa using hx⟩, rfl⟩
    rw [h1] at this
    cases this

theorem Stored.aggregate {r : Reader} {scale : Nat} {qs : List (BitVec 64)} (h : Stored r scale qs)
    (o : FloatOps) (f : BitVec 64 → BitVec 64 → BitVec 64) (init : BitVec 64) (bm : Option Bitmap)
    (hb : ∀ b, bm = some b → Bitmap.WF b)
    (off : Nat) (hoff : off + qs.length < 2 ^ 32) (hne : qs ≠ []) :
    ∃ r', Stored r' scale qs ∧ r'.decompressed = r.decompressed ∧
      r.aggregate o f init bm off = .ok (if sel bm off qs = [] then nanBits
        else dequantize o (scale % 2 ^ 32) ((sel bm off qs).foldl f init), r') := by
  obtain ⟨pad, h1, h2⟩ := h.header
  unfold Reader.aggregate
  rw [h1]
  simp only [h.records]
  cases bm with
  | none =>
    obtain ⟨br', h3, h4⟩ := foldLoop_at f (width_le qs) qs (qs.headD 0) init h2 (lt_width qs)
    refine ⟨{ r with br := br' }, h.of_buf rfl h4, rfl, ?_⟩
    simp only [h3]
    simp [sel, hne, h.records]
  | some b =>
    have hw := hb b rfl
    simp only [sel]
    cases hin : inChunk off qs.length b with
    | nil =>
      refine ⟨{ r with br := r.br.reset.adv 104 }, h.of_buf rfl rfl, rfl, ?_⟩
      simp [(inChunk_nil_iff b off qs hoff).1 hin, h.records]
    | cons n more =>
      have hs : (n :: more).Pairwise (· < ·) := by
        rw [← hin, inChunk]; exact hw.1.filter _
      have hge : off + 0 ≤ n := by
        have : n ∈ inChunk off qs.length b := by rw [hin]; simp
        rw [inChunk, List.mem_filter, Bool.and_eq_true, decide_eq_true_eq, decide_eq_true_eq] at this
        omega
      obtain ⟨br', h3, h4⟩ := scanLoop_at f (width_le qs) qs (qs.headD 0) 0 init n more h2
        (lt_width qs) (by omega) hs hge
      refine ⟨{ r with br := br' }, h.of_buf rfl h4, rfl, ?_⟩
      have hne' : pick b off qs ≠ [] := by
        intro hcon
        rw [← inChunk_nil_iff b off qs hoff, hin] at hcon
        cases hcon
      rw [← hin, Nat.add_zero, pick_inChunk b off qs hoff] at h3
      simp only [h3]
      simp [hne', h.records]

theorem foldl_imax (qs : List (BitVec 64)) (a : BitVec 64) :
    (qs.foldl imax a = a ∨ qs.foldl imax a ∈ qs) ∧ a.toInt ≤ (qs.foldl imax a).toInt ∧
      ∀ q ∈ qs, q.toInt ≤ (qs.foldl imax a).toInt := by
  induction qs generalizing a with
  | nil => simp
  | cons q qs ih =>
    obtain ⟨h1, h2, h3⟩ := ih (imax a q)
    have hm : (imax a q = a ∨ imax a q = q) ∧ a.toInt ≤ (imax a q).toInt ∧ q.toInt ≤ (imax a q).toInt := by
      unfold imax
      simp only [BitVec.slt_eq_decide, decide_eq_true_eq]
      split <;> simp <;> omega
    rw [List.foldl_cons]
    refine ⟨?_, by omega, ?_⟩
    · rcases h1 with h1 | h1
      · rcases hm.1 with h | h <;> rw [h1, h] <;> simp
      · right; simp [h1]
    · intro x hx
      rw [List.mem_cons] at hx
      rcases hx with rfl | hx
      · omega
      · exact h3 x hx

theorem foldl_imin (qs : List (BitVec 64)) (a : BitVec 64) :
    (qs.foldl imin a = a ∨ qs.foldl imin a ∈ qs) ∧ (qs.foldl imin a).toInt ≤ a.toInt ∧
      ∀ q ∈ qs, (qs.foldl imin a).toInt ≤ q.toInt := by
  induction qs generalizing a with
  | nil => simp
  | cons q qs ih =>
    obtain ⟨h1, h2, h3⟩ := ih (imin a q)
    have hm : (imin a q = a ∨ imin a q = q) ∧ (imin a q).toInt ≤ a.toInt ∧ (imin a q).toInt ≤ q.toInt := by
      unfold imin
      simp only [BitVec.slt_eq_decide, decide_eq_true_eq]
      split <;> simp <;> omega
    rw [List.foldl_cons]
    refine ⟨?_, by omega, ?_⟩
    · rcases h1 with h1 | h1
      · rcases hm.1 with h | h <;> rw [h1, h] <;> simp
      · right; simp [h1]
    · intro x hx
      rw [List.mem_cons] at hx
      rcases hx with rfl | hx
      · omega
      · exact h3 x hx

theorem foldl_add (qs : List (BitVec 64)) (a : BitVec 64) :
    qs.foldl (· + ·) a = BitVec.ofInt 64 (a.toInt + (qs.map BitVec.toInt).sum) := by
  induction qs generalizing a with
  | nil => simp
  | cons q qs ih =>
    rw [List.foldl_cons, ih, List.map_cons, List.sum_cons]
    apply BitVec.eq_of_toInt_eq
    rw [BitVec.toInt_ofInt, BitVec.toInt_ofInt, BitVec.toInt_add, ← Int.add_assoc]
    simp

end Ebi.Sprintz
