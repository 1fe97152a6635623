import Verif.Xor
import Verif.LeadTable

/-!
# Chimp128  (`compressor/chimp_n.rs`, `decoder/chunk_reader/chimp_n.rs` with `N = 128`)

Constants (chimp_n.rs:139-143): `PREVIOUS_VALUES_LOG2 = 7`, `THRESHOLD = 13`, `SET_LSB = 2^14 - 1`,
`FLAG_ZERO_SIZE = 9`, `FLAG_ONE_SIZE = 18`.

The arrays `stored_values` (128 slots) and `indices` (2^14 slots) are modelled as functions on
indices; every access of the code is at an index taken modulo 128 resp. masked with `SET_LSB`.
-/

namespace Ebi
namespace Chimp128

/-- Array store. -/
def upd {α : Type} (f : Nat → α) (i : Nat) (v : α) : Nat → α := fun k => if k = i then v else f k

/-- `struct ChimpNEncoder`, compressor/chimp_n.rs:127-136 (the writer is passed separately;
`size` is a `u32`: additions wrap, see `addSize`). -/
structure Enc where
  storedLz : Nat
  stored : Nat → B64
  first : Bool
  size : Nat
  indices : Nat → Nat
  index : Nat
  current : Nat

/-- `size += n` on `u32` in a release build; a debug build panics on overflow. -/
def addSize (a n : Nat) : Nat := (a + n) % 2 ^ 32

/-- `with_capacity`, compressor/chimp_n.rs:161-172. -/
def Enc.new : Enc := ⟨2 ^ 32 - 1, fun _ => 0#64, true, 0, fun _ => 0, 0, 0⟩

/-- `value & SET_LSB`. -/
def key (v : B64) : Nat := v.toNat &&& 0x3fff

/-- `write_first`, compressor/chimp_n.rs:183-189. -/
def writeFirst (s : Enc) (w : BitWriter) (v : B64) : Enc × BitWriter :=
  ({ s with
      first := false
      stored := upd s.stored s.current v
      indices := upd s.indices (key v) s.index
      size := addSize s.size 64 }, w.writeBits v.toNat 64)

/-- Choice of the reference slot, compressor/chimp_n.rs:197-218: slot, difference, trailing zeros. -/
def choose (s : Enc) (v : B64) : Nat × Nat × Nat :=
  let curr := s.indices (key v)
  if s.index - curr < 128 then
    let tempXor := (v ^^^ s.stored (curr % 128)).toNat
    let trail := tz64 tempXor
    if 13 < trail then (curr % 128, tempXor, trail)
    else (s.index % 128, (s.stored (s.index % 128) ^^^ v).toNat, trail)
  else (s.index % 128, (s.stored (s.index % 128) ^^^ v).toNat, 0)

/-- Bookkeeping at the end of `compress_value`, compressor/chimp_n.rs:254-257. -/
def push (s : Enc) (v : B64) : Enc :=
  let current := (s.current + 1) % 128
  { s with
    current := current
    stored := upd s.stored current v
    index := s.index + 1
    indices := upd s.indices (key v) (s.index + 1) }

/-- `compress_value`, compressor/chimp_n.rs:196-258. -/
def compressValue (s : Enc) (w : BitWriter) (v : B64) : Enc × BitWriter :=
  let (prev, xor, trail) := choose s v
  if xor = 0 then
    (push { s with size := addSize s.size 9, storedLz := 65 } v, w.writeBits prev 9)
  else
    let lead := roundLz xor
    if 13 < trail then
      let sig := 64 - lead - trail
      let w := w.writeBits (512 * (128 + prev) + 64 * leadingRepr lead + sig) 18
      let w := w.writeBits (xor >>> trail) sig
      (push { s with size := addSize s.size (sig + 18), storedLz := 65 } v, w)
    else if lead = s.storedLz then
      let w := w.writeBits 2 2
      let sig := 64 - lead
      let w := w.writeBits xor sig
      (push { s with size := addSize s.size (2 + sig) } v, w)
    else
      let sig := 64 - lead
      let w := w.writeBits (24 + leadingRepr lead) 5
      let w := w.writeBits xor sig
      (push { s with size := addSize s.size (5 + sig), storedLz := lead } v, w)

/-- `add_value`, compressor/chimp_n.rs:174-181. -/
def addValue (s : Enc) (w : BitWriter) (v : B64) : Enc × BitWriter :=
  if s.first then writeFirst s w v else compressValue s w v

/-- `add_value` in the shape of the XOR traits; the count is the growth of the
`u32` counter `size` (the code does not report a count). -/
def compressFloat (s : Enc) (w : BitWriter) (v : B64) : Enc × BitWriter × Nat :=
  let (s', w') := addValue s w v
  (s', w', (s'.size + 2 ^ 32 - s.size) % 2 ^ 32)

/-- `close`, compressor/chimp_n.rs:191-194. -/
def close (s : Enc) (w : BitWriter) : Enc × BitWriter :=
  let (s, w) := addValue s w nanBits
  (s, w.writeBit false)

/-- `simulate_add_value`, compressor/chimp_n.rs:292-336. -/
def simulateAddValue (s : Enc) (v : B64) : Nat :=
  if s.first then 64
  else
    let (_, xor, trail) := choose s v
    if xor = 0 then addSize s.size 9
    else
      let lead := roundLz xor
      if 13 < trail then
        let sig := 64 - lead - trail
        addSize s.size (sig + 18)
      else if lead = s.storedLz then
        let sig := 64 - lead
        addSize s.size (2 + sig)
      else
        let sig := 64 - lead
        addSize s.size (5 + sig)

/-- `struct ChimpNDecoder`, decoder/chunk_reader/chimp_n.rs:130-139. -/
structure Dec where
  storedLz : Nat
  storedVal : B64
  stored : Nat → B64
  current : Nat
  first : Bool
  endOfStream : Bool

/-- `ChimpNDecoder::new`, decoder/chunk_reader/chimp_n.rs:147-158. -/
def Dec.new : Dec := ⟨2 ^ 32 - 1, 0#64, fun _ => 0#64, 0, true, false⟩

/-- Advance the ring and store the current value (chimp_n.rs:224-225, 238-239, 272-273, 281-282),
then hand the value out. -/
def pushValue (d : Dec) (r : BitReader) : DRes Dec :=
  let current := (d.current + 1) % 128
  .value d.storedVal { d with current := current, stored := upd d.stored current d.storedVal } r

/-- The end-of-stream test of the flags 1, 2, 3 (chimp_n.rs:221-226, 235-240, 269-274). -/
def finish (d : Dec) (r : BitReader) : DRes Dec :=
  if d.storedVal = nanBits then .done { d with endOfStream := true } r else pushValue d r

/-- Read `n` bits, XOR them shifted into the stored value and finish. -/
def xorBits (d : Dec) (r : BitReader) (n shift : Nat) : DRes Dec :=
  match r.readBits n with
  | none => .err
  | some (bits, r) => finish { d with storedVal := d.storedVal ^^^ (BitVec.ofNat 64 bits <<< shift) } r

/-- Flag 1, decoder/chunk_reader/chimp_n.rs:242-275. The `u32` subtraction at 261-262 panics (debug)
if the announced window does not fit. -/
def readFlag1 (d : Dec) (r : BitReader) : DRes Dec :=
  match r.readBits 16 with
  | none => .err
  | some (temp, r) =>
    let index := (temp >>> 9) &&& 0x7f
    let lead := leadingDecode ((temp >>> 6) &&& 7)
    let s := temp &&& 0x3f
    let sig := if s = 0 then 64 else s
    if 64 < sig + lead then .panic
    else
      let trail := 64 - sig - lead
      xorBits { d with storedLz := lead, storedVal := d.stored index } r (64 - lead - trail) trail

/-- `next_value`, decoder/chunk_reader/chimp_n.rs:201-286. For flag 2 the code computes
`64 - stored_leading_zeros as u8`, which panics (debug) for the initial `u32::MAX`. -/
def readNext (d : Dec) (r : BitReader) : DRes Dec :=
  match r.readBits 2 with
  | none => .err
  | some (flag, r) =>
    match flag with
    | 3 =>
      match r.readBits 3 with
      | none => .err
      | some (l, r) =>
        let lead := leadingDecode l
        xorBits { d with storedLz := lead } r (64 - lead) 0
    | 2 => if 64 < d.storedLz then .panic else xorBits d r (64 - d.storedLz) 0
    | 1 => readFlag1 d r
    | _ =>
      match r.readBits 7 with
      | none => .err
      | some (i, r) => pushValue { d with storedVal := d.stored i } r

/-- First value, decoder/chunk_reader/chimp_n.rs:183-194. -/
def readFirst (d : Dec) (r : BitReader) : DRes Dec :=
  match r.readBits 64 with
  | none => .err
  | some (bits, r) =>
    let v := BitVec.ofNat 64 bits
    let d := { d with first := false, storedVal := v, stored := upd d.stored d.current v }
    if v = nanBits then .done { d with endOfStream := true } r else .value v d r

/-- `read_value`, decoder/chunk_reader/chimp_n.rs:160-172. -/
def next (d : Dec) (r : BitReader) : DRes Dec :=
  if d.endOfStream then .done d r
  else if d.first then readFirst d r else readNext d r

/-- Chimp128 in the shape of the XOR traits (the compressor struct of chimp_n.rs:16-21 and its
`compress`, `prepare`, `buffers`, `reset`, 74-121, coincide with `GeneralXorCompressor`; only
`total_bytes_buffered` differs, see `totalBytesBuffered`). -/
def codec : XorCodec where
  S := Enc
  D := Dec
  init := Enc.new
  compressFloat := compressFloat
  close := close
  simulateClose s := (simulateAddValue s nanBits + 1 + 2 ^ 32 - s.size) % 2 ^ 32
  dinit := Dec.new
  next := next

/-- `n.next_multiple_of(8)` on `u32` (release build: wraps). -/
def nextMultipleOf8 (n : Nat) : Nat := if n % 8 = 0 then n else (n + (8 - n % 8)) % 2 ^ 32

/-- `total_bytes_buffered`, compressor/chimp_n.rs:89-98, without the `debug_assert`. -/
def totalBytesBuffered (c : codec.Compressor) : Nat :=
  nextMultipleOf8 (addSize (simulateAddValue c.enc nanBits) 1) / 8

/-! ## Laws -/

/-- Reachable encoder states: no index of the hash table is ahead, the ring position follows the
index, the size counter is zero before the first value. -/
structure Inv (s : Enc) : Prop where
  idx : ∀ k, s.indices k ≤ s.index
  cur : s.current = s.index % 128
  size0 : s.first = true → s.size = 0
  size_lt : s.size < 2 ^ 32

def emitNext (s : Enc) (v : B64) : List Bool :=
  let (prev, xor, trail) := choose s v
  if xor = 0 then natBits prev 9
  else
    let lead := roundLz xor
    if 13 < trail then
      let sig := 64 - lead - trail
      natBits (512 * (128 + prev) + 64 * leadingRepr lead + sig) 18 ++ natBits (xor >>> trail) sig
    else if lead = s.storedLz then natBits 2 2 ++ natBits xor (64 - lead)
    else natBits (24 + leadingRepr lead) 5 ++ natBits xor (64 - lead)

def emit (s : Enc) (v : B64) : List Bool :=
  if s.first then natBits v.toNat 64 else emitNext s v

def nextS (s : Enc) (v : B64) : Enc := (addValue s BitWriter.new v).1

theorem addValue_state (s : Enc) (w : BitWriter) (v : B64) : (addValue s w v).1 = nextS s v := by
  unfold nextS addValue writeFirst compressValue
  split
  · rfl
  · simp only
    split
    · rfl
    · split
      · rfl
      · split <;> rfl

theorem addValue_rep {s : Enc} {w : BitWriter} {bs : List Bool} (v : B64) (h : w.Rep bs) :
    (addValue s w v).2.Rep (bs ++ emit s v) := by
  unfold addValue emit writeFirst compressValue emitNext
  split
  · exact BitWriter.rep_writeBits h _ _
  · simp only
    split
    · exact BitWriter.rep_writeBits h _ _
    · split
      · simpa using BitWriter.rep_writeBits (BitWriter.rep_writeBits h _ _) _ _
      · split
        · simpa using BitWriter.rep_writeBits (BitWriter.rep_writeBits h _ _) _ _
        · simpa using BitWriter.rep_writeBits (BitWriter.rep_writeBits h _ _) _ _

theorem size_eq {s : Enc} (hi : Inv s) (v : B64) :
    (nextS s v).size = addSize s.size (emit s v).length ∧
    simulateAddValue s v = (nextS s v).size := by
  unfold nextS simulateAddValue addValue emit writeFirst compressValue emitNext
  by_cases hf : s.first = true
  · have := hi.size0 hf
    simp [hf, this, addSize]
  · simp only [hf, Bool.false_eq_true, if_false]
    split
    · simp [push]
    · split
      · simp [push, Nat.add_comm]
      · split
        · simp [push]
        · simp [push]

theorem inv_push {s : Enc} (hi : Inv s) (hf : s.first = false) (v : B64) : Inv (push s v) := by
  refine ⟨fun k => ?_, ?_, ?_, hi.size_lt⟩
  · simp only [push, upd]
    split
    · omega
    · have := hi.idx k; omega
  · simp only [push]
    have := hi.cur
    omega
  · intro h; simp only [push, hf] at h; cases h

theorem addSize_lt (a n : Nat) : addSize a n < 2 ^ 32 := Nat.mod_lt _ (by decide)

theorem inv_nextS {s : Enc} (hi : Inv s) (v : B64) : Inv (nextS s v) := by
  unfold nextS addValue writeFirst compressValue
  by_cases hf : s.first = true
  · simp only [hf, if_true]
    refine ⟨fun k => ?_, hi.cur, by simp, addSize_lt _ _⟩
    simp only [upd]
    split
    · omega
    · exact hi.idx k
  · have hf' : s.first = false := by simpa using hf
    simp only [hf', Bool.false_eq_true, if_false]
    have hI : ∀ a b, Inv { s with size := addSize s.size a, storedLz := b, first := false } :=
      fun a b => ⟨hi.idx, hi.cur, by simp, addSize_lt _ _⟩
    split
    · exact inv_push (hI _ _) rfl v
    · split
      · exact inv_push (hI _ _) rfl v
      · split
        · exact inv_push (hI _ s.storedLz) rfl v
        · exact inv_push (hI _ _) rfl v

theorem emit_pos (s : Enc) (v : B64) : 0 < (emit s v).length := by
  unfold emit emitNext
  split
  · simp
  · simp only
    split
    · simp
    · split
      · simp only [List.length_append, natBits_length]; omega
      · split
        · simp only [List.length_append, natBits_length]; omega
        · simp only [List.length_append, natBits_length]; omega

structure Sim (s : Enc) (d : Dec) : Prop where
  inv : Inv s
  ring : d.stored = s.stored
  cur : d.current = s.current
  value : s.first = false → d.storedVal = s.stored s.current
  first : d.first = s.first
  done : d.endOfStream = false
  notNan : ∀ k, s.stored k ≠ nanBits
  window : s.storedLz ≤ 24 → d.storedLz = s.storedLz

/-- What the choice of the reference guarantees: the difference is against the chosen slot, and
the trailing zero count is that of the difference whenever it is used; otherwise the slot is the
current one. -/
theorem choose_spec (s : Enc) (v : B64) :
    (choose s v).1 < 128 ∧ (choose s v).2.1 = (v ^^^ s.stored (choose s v).1).toNat ∧
    (13 < (choose s v).2.2 → (choose s v).2.2 = tz64 (choose s v).2.1) ∧
    (¬ 13 < (choose s v).2.2 → (choose s v).1 = s.index % 128) := by
  unfold choose
  simp only
  split
  · split
    · rename_i h
      exact ⟨by simp only; omega, rfl, fun _ => rfl, fun h' => absurd h h'⟩
    · rename_i h
      exact ⟨by simp only; omega, by simp only; rw [BitVec.xor_comm], fun h' => absurd h' h, fun _ => rfl⟩
  · exact ⟨by simp only; omega, by simp only; rw [BitVec.xor_comm], by simp, fun _ => rfl⟩

/-- Both sides push the same value. -/
theorem sim_push {s : Enc} {d : Dec} (hi : Inv s) (hf : s.first = false) (hr : d.stored = s.stored)
    (hc : d.current = s.current) (hff : d.first = s.first) (hd : d.endOfStream = false)
    (hn : ∀ k, s.stored k ≠ nanBits) (hw : s.storedLz ≤ 24 → d.storedLz = s.storedLz)
    (v : B64) (hv : v ≠ nanBits) (hdv : d.storedVal = v) :
    Sim (push s v) { d with current := (d.current + 1) % 128, stored := upd d.stored ((d.current + 1) % 128) d.storedVal } := by
  refine ⟨inv_push hi hf v, ?_, ?_, ?_, ?_, ?_, ?_, ?_⟩
  · simp only [push, hr, hc, hdv]
  · simp only [push, hc]
  · intro _; simp [push, upd, hdv]
  · exact hff
  · exact hd
  · intro k
    simp only [push, upd]
    split
    · exact hv
    · exact hn k
  · exact hw

theorem finish_at {s : Enc} {d : Dec} {r : BitReader} {t : List Bool} (hi : Inv s) (hf : s.first = false)
    (hr : d.stored = s.stored)
    (hc : d.current = s.current) (hff : d.first = s.first) (hd : d.endOfStream = false)
    (hn : ∀ k, s.stored k ≠ nanBits) (hw : s.storedLz ≤ 24 → d.storedLz = s.storedLz)
    (v : B64) (hdv : d.storedVal = v) (ha : r.At t) :
    (v ≠ nanBits → ∃ d' r', finish d r = .value v d' r' ∧ r'.At t ∧ Sim (push s v) d') ∧
    (v = nanBits → ∃ d' r', finish d r = .done d' r' ∧ r'.At t) := by
  unfold finish
  rw [hdv]
  refine ⟨fun hv => ?_, fun hv => ⟨_, _, by rw [if_pos hv], ha⟩⟩
  rw [if_neg hv]
  exact ⟨_, r, by unfold pushValue; rw [hdv], ha,
    by have := sim_push hi hf hr hc hff hd hn hw v hv hdv; rwa [hdv] at this⟩

theorem read_emit {s : Enc} {d : Dec} {r : BitReader} {t : List Bool} (v : B64)
    (h : Sim s d) (hr : r.At (emit s v ++ t)) :
    (v ≠ nanBits → ∃ d' r', next d r = .value v d' r' ∧ r'.At t ∧ Sim (nextS s v) d') ∧
    (v = nanBits → ∃ d' r', next d r = .done d' r' ∧ r'.At t) := by
  have hinv' := inv_nextS h.inv v
  unfold next
  rw [if_neg (by simp [h.done]), h.first]
  unfold nextS addValue at hinv' ⊢
  unfold emit at hr
  by_cases hf : s.first = true
  · simp only [hf, if_true] at hr hinv' ⊢
    unfold writeFirst at hinv' ⊢
    have hb := hr.readBits_lt (by omega) v.isLt
    unfold readFirst
    simp only [hb.1, BitVec.ofNat_toNat, BitVec.setWidth_eq]
    refine ⟨fun hv => ⟨{ d with first := false, storedVal := v, stored := upd d.stored d.current v }, _,
      by rw [if_neg hv], hb.2, ?_⟩, fun hv => ⟨_, _, by rw [if_pos hv], hb.2⟩⟩
    refine ⟨hinv', by simp only [h.ring, h.cur], h.cur, fun _ => by simp [upd], rfl, h.done, ?_, h.window⟩
    intro k
    simp only [upd]
    split
    · exact hv
    · exact h.notNan k
  · have hf' : s.first = false := by simpa using hf
    have hdf : d.first = false := by rw [h.first, hf']
    simp only [hf', Bool.false_eq_true, if_false] at hr ⊢
    unfold emitNext at hr
    unfold compressValue
    obtain ⟨c1, c2, c3, c4⟩ := choose_spec s v
    generalize hpp : (choose s v).1 = prev at *
    generalize hxx : (choose s v).2.1 = xor at *
    generalize htt : (choose s v).2.2 = trail at *
    have hch : choose s v = (prev, xor, trail) := by rw [← hpp, ← hxx, ← htt]
    simp only [hch] at hr ⊢
    by_cases h0 : xor = 0
    · simp only [h0, if_true] at hr ⊢
      rw [h0] at c2
      have hv := xor_eq_zero.1 c2.symm
      rw [natBits_append prev 2 7, List.append_assoc] at hr
      have hp0 : prev >>> 7 = 0 := by rw [Nat.shiftRight_eq_div_pow]; omega
      rw [hp0] at hr
      have hb1 := hr.readBits_lt (by omega) (by omega)
      have hb2 := hb1.2.readBits_lt (by omega) (by omega)
      unfold readNext
      simp only [hb1.1, hb2.1]
      have hvn : v ≠ nanBits := by rw [hv]; exact h.notNan _
      refine ⟨fun _ => ⟨{ d with storedVal := d.stored prev, current := (d.current + 1) % 128, stored := upd d.stored ((d.current + 1) % 128) (d.stored prev) }, _, ?_, hb2.2, ?_⟩,
        fun hn => absurd hn hvn⟩
      rotate_left
      · exact sim_push (s := { s with size := addSize s.size 9, storedLz := 65 })
          (d := { d with storedVal := d.stored prev })
          ⟨h.inv.idx, h.inv.cur, by simp [hf'], addSize_lt _ _⟩ hf' h.ring h.cur h.first h.done h.notNan (by simp)
          v hvn (by rw [h.ring]; exact hv.symm)
      · unfold pushValue
        simp only [h.ring, ← hv]
    · simp only [h0, if_false] at hr ⊢
      have hx : xor < 2 ^ 64 := by rw [c2]; exact (v ^^^ s.stored prev).isLt
      have hl24 := roundLz_le h0
      have hllz := roundLz_le_lz h0
      have hlt63 := lz_tz h0 hx
      have hrep := repr_lt h0
      have hdec := decode_repr h0
      have hiI : ∀ a b, Inv { s with size := addSize s.size a, storedLz := b } :=
        fun a b => ⟨h.inv.idx, h.inv.cur, by simp [hf'], addSize_lt _ _⟩
      by_cases ht : 13 < trail
      · simp only [if_pos ht] at hr ⊢
        have hT := c3 ht
        generalize hL : roundLz xor = L at *
        have hbig : (512 * (128 + prev) + 64 * leadingRepr L + (64 - L - trail)) >>> 16 = 1 := by
          rw [Nat.shiftRight_eq_div_pow]; omega
        rw [List.append_assoc, natBits_append _ 2 16, hbig, List.append_assoc] at hr
        have hb1 := hr.readBits_lt (by omega) (by omega)
        have hb2 := hb1.2.readBits (by omega)
        have hmod : (512 * (128 + prev) + 64 * leadingRepr L + (64 - L - trail)) % 2 ^ 16
            = 512 * prev + 64 * leadingRepr L + (64 - L - trail) := by omega
        rw [hmod] at hb2
        have e1 : (512 * prev + 64 * leadingRepr L + (64 - L - trail)) >>> 9 &&& 127 = prev := by
          rw [Nat.and_two_pow_sub_one_eq_mod _ 7, Nat.shiftRight_eq_div_pow]; omega
        have e2 : (512 * prev + 64 * leadingRepr L + (64 - L - trail)) >>> 6 &&& 7 = leadingRepr L := by
          rw [Nat.and_two_pow_sub_one_eq_mod _ 3, Nat.shiftRight_eq_div_pow]; omega
        have e3 : (512 * prev + 64 * leadingRepr L + (64 - L - trail)) &&& 63 = 64 - L - trail := by
          rw [Nat.and_two_pow_sub_one_eq_mod _ 6]; omega
        have hlt : xor >>> trail < 2 ^ (64 - L - trail) := by
          rw [← hL]; exact shiftRight_lt (lt_of_roundLz h0 hx) (by omega)
        have hb3 := hb2.2.readBits_lt (by omega) hlt
        have e4 : 64 - (64 - L - trail) - L = trail := by omega
        unfold readNext
        simp only [hb1.1, readFlag1, hb2.1, e1, e2, e3, hdec]
        rw [if_neg (by omega : 64 - L - trail ≠ 0), if_neg (by omega), e4]
        simp only [xorBits, hb3.1, h.ring]
        refine finish_at (s := { s with size := addSize s.size (64 - L - trail + 18), storedLz := 65 })
          (hiI _ _) hf' ?_ ?_ ?_ ?_ h.notNan ?_ v ?_ hb3.2
        · first | exact h.ring | rfl
        · exact h.cur
        · exact h.first
        · exact h.done
        · simp
        · rw [c2]; exact restore_shift v (s.stored prev) trail (by rw [← c2]; omega)
      · simp only [if_neg ht] at hr ⊢
        have hprev := c4 ht
        have hval : d.storedVal = s.stored prev := by rw [h.value hf', h.inv.cur, hprev]
        by_cases hl : roundLz xor = s.storedLz
        · simp only [if_pos hl] at hr ⊢
          rw [List.append_assoc] at hr
          have hb1 := hr.readBits_lt (by omega) (by omega)
          have hb2 := hb1.2.readBits_lt (by omega) (lt_of_roundLz h0 hx)
          have hw : d.storedLz = roundLz xor := by rw [h.window (by omega), hl]
          unfold readNext
          simp only [hb1.1, hw]
          rw [if_neg (by omega)]
          simp only [xorBits, hb2.1, BitVec.shiftLeft_zero]
          refine finish_at (s := { s with size := addSize s.size (2 + (64 - roundLz xor)) })
            (hiI _ _) hf' ?_ ?_ ?_ ?_ h.notNan ?_ v ?_ hb2.2
          · first | exact h.ring | rfl
          · exact h.cur
          · exact h.first
          · exact h.done
          · simp only; intro _; omega
          · rw [hval, c2]; exact restore_zero v _
        · simp only [if_neg hl] at hr ⊢
          have hbig : (24 + leadingRepr (roundLz xor)) >>> 3 = 3 := by
            rw [Nat.shiftRight_eq_div_pow]; omega
          rw [List.append_assoc, natBits_append _ 2 3, hbig, List.append_assoc] at hr
          have hb1 := hr.readBits_lt (by omega) (by omega)
          have hb2 := hb1.2.readBits (by omega)
          have hmod : (24 + leadingRepr (roundLz xor)) % 2 ^ 3 = leadingRepr (roundLz xor) := by omega
          rw [hmod] at hb2
          have hb3 := hb2.2.readBits_lt (by omega) (lt_of_roundLz h0 hx)
          unfold readNext
          simp only [hb1.1, hb2.1, hdec]
          simp only [xorBits, hb3.1, BitVec.shiftLeft_zero]
          refine finish_at (s := { s with size := addSize s.size (5 + (64 - roundLz xor)), storedLz := roundLz xor })
            (hiI _ _) hf' ?_ ?_ ?_ ?_ h.notNan ?_ v ?_ hb3.2
          · first | exact h.ring | rfl
          · exact h.cur
          · exact h.first
          · exact h.done
          · exact fun _ => rfl
          · rw [hval, c2]; exact restore_zero v _

theorem inv_init : Inv Enc.new := ⟨fun _ => Nat.le_refl _, rfl, fun _ => rfl, by decide⟩

theorem emit_le (s : Enc) (v : B64) : (emit s v).length ≤ 69 := by
  unfold emit emitNext
  split
  · simp
  · simp only
    split
    · simp
    · split
      · simp; omega
      · split <;> (simp; omega)

/-- A value takes at least 9 bits. -/
theorem emit_ge (s : Enc) (v : B64) : 9 ≤ (emit s v).length := by
  unfold emit emitNext
  split
  · simp
  · simp only
    split
    · simp
    · rename_i h0
      have := roundLz_le h0
      split
      · simp; omega
      · split <;> (simp; omega)

def encLaws : codec.EncLaws where
  emit := emit
  closeBits s := emit s nanBits ++ [false]
  nextS := nextS
  Inv := Inv
  inv_init := inv_init
  inv_next v h := inv_nextS h v
  compress_state := addValue_state
  compress_rep v _ h := addValue_rep v h
  close_rep {s w bs} _ h := by
    have := BitWriter.rep_writeBit (addValue_rep (s := s) nanBits h) false
    rw [List.append_assoc] at this
    exact this
  simulateClose_eq {s} h := by
    have h1 := size_eq h nanBits
    have h2 := emit_le s nanBits
    have h3 := h.size_lt
    simp only [codec, List.length_append, List.length_singleton]
    rw [h1.2, h1.1, addSize]
    omega
  emit_pos := emit_pos

def laws : codec.Laws where
  toEncLaws := encLaws
  Sim := Sim
  Ok v := v ≠ nanBits
  sim_inv h := h.inv
  sim_init := ⟨inv_init, rfl, rfl, (fun h => by cases h), rfl, rfl, (fun _ => by show (0#64 : B64) ≠ nanBits; decide),
    fun h => by simp [codec, Enc.new] at h⟩
  next_value v hv h hr := (read_emit v h hr).1 hv
  next_nan h hr := ((read_emit nanBits h hr).2 rfl).imp fun _ h => h.imp fun _ h => h.1
  endBits s := emit s nanBits
  closeBits_eq _ := rfl
  next_close h hr := (read_emit nanBits h hr).2 rfl

/-- The size counter is the number of bits in the writer, modulo `2^32`. -/
theorem size_nextAll {s : Enc} (hi : Inv s) (vs : List B64) :
    (encLaws.nextAll s vs).size = addSize s.size (encLaws.emitAll s vs).length := by
  induction vs generalizing s with
  | nil => exact (Nat.mod_eq_of_lt hi.size_lt).symm
  | cons v vs ih =>
    have h1 := ih (inv_nextS hi v)
    have h2 := (size_eq hi v).1
    simp only [XorCodec.EncLaws.nextAll] at h1 ⊢
    simp only [XorCodec.EncLaws.emitAll, List.length_append]
    change (List.foldl encLaws.nextS (nextS s v) vs).size =
      addSize s.size ((emit s v).length + (encLaws.emitAll (nextS s v) vs).length)
    rw [h1, h2]
    unfold addSize
    omega

/-- What Chimp128 announces: the number of bits modulo `2^32`, rounded up to bytes modulo `2^32` bits. -/
theorem buffered_eq (c : codec.Compressor) (vs : List B64) :
    ∃ n, (codec.buffers (codec.prepare (codec.compress c vs))).length = (n + 7) / 8 ∧
      9 * vs.length ≤ n ∧
      totalBytesBuffered (codec.compress c vs) = nextMultipleOf8 (n % 2 ^ 32) / 8 := by
  obtain ⟨h1, h2, -⟩ := encLaws.compress_rep_all c vs
  have h3 := encLaws.prepare_rep_all c vs
  have e3 := BitWriter.rep_bytes_length h3
  have hi : Inv (encLaws.nextAll Enc.new vs) := encLaws.inv_nextAll (C := codec) vs inv_init
  have e4 := size_eq hi nanBits
  have e5 := size_nextAll inv_init vs
  change (encLaws.nextAll Enc.new vs).size = addSize 0 _ at e5
  refine ⟨_, e3, ?_, ?_⟩
  · have : ∀ (us : List B64) (s : Enc), 9 * us.length ≤ (encLaws.emitAll s us).length := by
      intro us
      induction us with
      | nil => simp [XorCodec.EncLaws.emitAll]
      | cons v us ih =>
        intro s
        have a := ih (nextS s v)
        have b := emit_ge s v
        simp only [XorCodec.EncLaws.emitAll, List.length_append, List.length_cons]
        change _ ≤ (emit s v).length + (encLaws.emitAll (nextS s v) us).length
        omega
    have := this vs Enc.new
    rw [List.length_append]
    exact Nat.le_trans this (Nat.le_add_right _ _)
  · unfold totalBytesBuffered
    rw [h2, List.length_append]
    change nextMultipleOf8 (addSize (simulateAddValue (encLaws.nextAll Enc.new vs) nanBits) 1) / 8 =
      nextMultipleOf8 (((encLaws.emitAll Enc.new vs).length +
        (emit (encLaws.nextAll Enc.new vs) nanBits ++ [false]).length) % 2 ^ 32) / 8
    rw [e4.2, e4.1, e5, List.length_append, List.length_singleton]
    unfold addSize
    congr 2
    omega

/-- Below `2^32` bits Chimp128 announces its size exactly. -/
theorem buffered_exact (c : codec.Compressor) (vs : List B64)
    (h : (codec.buffers (codec.prepare (codec.compress c vs))).length < 2 ^ 29) :
    totalBytesBuffered (codec.compress c vs) =
      (codec.buffers (codec.prepare (codec.compress c vs))).length := by
  obtain ⟨n, h1, -, h3⟩ := buffered_eq c vs
  rw [h3, h1]
  rw [h1] at h
  unfold nextMultipleOf8
  rw [show n % 2 ^ 32 = n from Nat.mod_eq_of_lt (by omega)]
  split <;> omega

/-- The announced size is always less than `2^29`. -/
theorem buffered_wraps (c : codec.Compressor) (vs : List B64) :
    totalBytesBuffered (codec.compress c vs) < 2 ^ 29 := by
  obtain ⟨n, -, -, h3⟩ := buffered_eq c vs
  rw [h3]
  unfold nextMultipleOf8
  split <;> omega

theorem finish_reader {d : Dec} {r : BitReader} {v d' r'} (h : finish d r = .value v d' r') :
    r' = r := by
  unfold finish pushValue at h
  split at h
  · cases h
  · cases h; rfl

theorem xorBits_progress {d : Dec} {r : BitReader} {n k : Nat} {v d' r'} (hr : r.WF)
    (h : xorBits d r n k = .value v d' r') : r'.WF ∧ r'.rest.length ≤ r.rest.length := by
  unfold xorBits at h
  split at h
  · cases h
  · rename_i hb
    have p := BitReader.readBits_progress hr hb
    simp only at p
    have := finish_reader h
    subst this
    exact ⟨p.1, by omega⟩

theorem readFlag1_progress {d : Dec} {r : BitReader} {v d' r'} (hr : r.WF)
    (h : readFlag1 d r = .value v d' r') : r'.WF ∧ r'.rest.length ≤ r.rest.length := by
  unfold readFlag1 at h
  split at h
  · cases h
  · rename_i hb
    have p1 := BitReader.readBits_progress hr hb
    simp only at p1 h
    generalize (if _ = 0 then 64 else _ : Nat) = c at h
    split at h
    · cases h
    · have := xorBits_progress p1.1 h
      exact ⟨this.1, by omega⟩

theorem readNext_progress {d : Dec} {r : BitReader} {v d' r'} (hr : r.WF)
    (h : readNext d r = .value v d' r') : r'.WF ∧ r'.rest.length < r.rest.length := by
  unfold readNext at h
  split at h
  · cases h
  · rename_i hb
    have p1 := BitReader.readBits_progress hr hb
    simp only at p1
    split at h
    · split at h
      · cases h
      · rename_i hb2
        have p2 := BitReader.readBits_progress p1.1 hb2
        have := xorBits_progress p2.1 h
        exact ⟨this.1, by simp only at p2 this; omega⟩
    · split at h
      · cases h
      · have := xorBits_progress p1.1 h
        exact ⟨this.1, by omega⟩
    · have := readFlag1_progress p1.1 h
      exact ⟨this.1, by omega⟩
    · split at h
      · cases h
      · rename_i hb2
        have p2 := BitReader.readBits_progress p1.1 hb2
        simp only at p2
        unfold pushValue at h
        cases h
        exact ⟨p2.1, by omega⟩

theorem next_progress {d : Dec} {r : BitReader} {v d' r'} (hr : r.WF)
    (h : next d r = .value v d' r') : r'.WF ∧ r'.rest.length < r.rest.length := by
  unfold next at h
  split at h
  · cases h
  · split at h
    · unfold readFirst at h
      split at h
      · cases h
      · rename_i hb
        have p := BitReader.readBits_progress hr hb
        simp only at p h
        split at h
        · cases h
        · cases h; exact ⟨p.1, by omega⟩
    · exact readNext_progress hr h

theorem progress : codec.Progress := fun hr h => next_progress hr h

end Chimp128
end Ebi
