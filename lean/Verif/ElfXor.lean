import Verif.Xor
import Verif.LeadTable

/-!
# The Elf XOR layer  (`ElfXorEncoder` in `compressor/elf.rs`, `ElfXorDecoder` in
`decoder/chunk_reader/elf.rs`)
-/

namespace Ebi
namespace ElfXor

/-- `struct ElfXorEncoder`, compressor/elf.rs:155-162. -/
structure Enc where
  storedLz : Nat
  storedTz : Nat
  storedVal : B64
  first : Bool
  size : Nat
deriving DecidableEq, Repr

/-- `u32::MAX`, the "no window yet" marker. -/
def u32Max : Nat := 2 ^ 32 - 1

/-- `ElfXorEncoder::new`, compressor/elf.rs:178-186. -/
def Enc.new : Enc := ⟨u32Max, u32Max, 0#64, true, 0⟩

/-- `write_first`, compressor/elf.rs:193-206. The shift amount is taken modulo 64 (release
semantics; a debug build panics on `-0.0`, see `shiftOverflow`). -/
def writeFirst (s : Enc) (w : BitWriter) (v : B64) : Enc × BitWriter × Nat :=
  let s := { s with first := false, storedVal := v }
  let trail := tz64 v.toNat
  let w := w.writeBits trail 7
  if trail < 64 then
    let w := w.writeBits (v.toNat >>> ((trail + 1) % 64)) (63 - trail)
    ({ s with size := s.size + (70 - trail) }, w, 70 - trail)
  else ({ s with size := s.size + 7 }, w, 7)

/-- `compress_float_inner`, compressor/elf.rs:212-271. Shift amounts modulo 64 as above. -/
def compressInner (s : Enc) (w : BitWriter) (v : B64) : Enc × BitWriter × Nat :=
  let xor := (s.storedVal ^^^ v).toNat
  if xor = 0 then ({ s with size := s.size + 2 }, w.writeBits 1 2, 2)
  else
    let lead := roundLz xor
    let trail := tz64 xor
    if lead = s.storedLz ∧ s.storedTz ≤ trail then
      let center := 64 - s.storedLz - s.storedTz
      let len := 2 + center
      let w :=
        if 64 < len then (w.writeBits 0 2).writeBits (xor >>> s.storedTz) center
        else w.writeBits (xor >>> s.storedTz) len
      ({ s with size := s.size + len, storedVal := v }, w, len)
    else
      let center := 64 - lead - trail
      let rep := leadingRepr lead
      if center ≤ 16 then
        let w := w.writeBits ((((2 <<< 3) ||| rep) <<< 4) ||| (center &&& 0xf)) 9
        let w := w.writeBits (xor >>> ((trail + 1) % 64)) (center - 1)
        ({ s with storedLz := lead, storedTz := trail, size := s.size + (8 + center), storedVal := v },
          w, 8 + center)
      else
        let w := w.writeBits ((((3 <<< 3) ||| rep) <<< 6) ||| (center &&& 0x3f)) 11
        let w := w.writeBits (xor >>> ((trail + 1) % 64)) (center - 1)
        ({ s with storedLz := lead, storedTz := trail, size := s.size + (10 + center), storedVal := v },
          w, 10 + center)

/-- `compress_float`, compressor/elf.rs:362-368. -/
def compressFloat (s : Enc) (w : BitWriter) (v : B64) : Enc × BitWriter × Nat :=
  if s.first then writeFirst s w v else compressInner s w v

/-- Does `compress_float` shift a `u64` by 64 (compressor/elf.rs:199, 252, 261)? A debug build panics
there; a release build does not. -/
def shiftOverflow (s : Enc) (v : B64) : Bool :=
  if s.first then tz64 v.toNat = 63
  else
    let xor := (s.storedVal ^^^ v).toNat
    xor ≠ 0 ∧ ¬ (roundLz xor = s.storedLz ∧ s.storedTz ≤ tz64 xor) ∧ tz64 xor = 63

/-- `close`, compressor/elf.rs:370-373. -/
def close (s : Enc) (w : BitWriter) : Enc × BitWriter :=
  let (s, w, _) := compressFloat s w nanBits
  (s, w.writeBit false)

/-- `simulate_compress_float`, compressor/elf.rs:315-352. -/
def simulateCompressFloat (s : Enc) (v : B64) : Nat :=
  if s.first then
    let trail := tz64 v.toNat
    if trail < 64 then 7 + 63 - trail else 7
  else
    let xor := (s.storedVal ^^^ v).toNat
    if xor = 0 then 2
    else
      let lead := roundLz xor
      let trail := tz64 xor
      if lead = s.storedLz ∧ s.storedTz ≤ trail then
        let center := 64 - s.storedLz - s.storedTz
        2 + center
      else
        let center := 64 - lead - trail
        if center ≤ 16 then 8 + center else 10 + center

/-- `simulate_close`, compressor/elf.rs:375-377. -/
def simulateClose (s : Enc) : Nat := simulateCompressFloat s nanBits + 1

/-- `struct ElfXorDecoder`, decoder/chunk_reader/elf.rs:106-112. -/
structure Dec where
  storedVal : B64
  storedLz : Nat
  storedTz : Nat
  first : Bool
  endOfStream : Bool
deriving DecidableEq, Repr

/-- `ElfXorDecoder::new`, decoder/chunk_reader/elf.rs:118-126. -/
def Dec.new : Dec := ⟨0#64, u32Max, u32Max, true, false⟩

/-- `((bits << 1) | 1) << tz` on `u64`, decoder/chunk_reader/elf.rs:132-137, 166-171, 194-198. -/
def withOne (bits tz : Nat) : B64 := BitVec.ofNat 64 (((bits <<< 1) ||| 1) <<< tz)

/-- XOR with the stored value, compare with the end marker, store;
decoder/chunk_reader/elf.rs:172-178, 200-206, 218-224. -/
def finish (d : Dec) (r : BitReader) (x : B64) : DRes Dec :=
  let v := x ^^^ d.storedVal
  if v = nanBits then .done { d with endOfStream := true } r
  else .value v { d with storedVal := v } r

/-- `read_first`, decoder/chunk_reader/elf.rs:128-147. -/
def readFirst (d : Dec) (r : BitReader) : DRes Dec :=
  match r.readBits 7 with
  | none => .err
  | some (trail, r) =>
    if trail < 64 then
      match r.readBits (63 - trail) with
      | none => .err
      | some (bits, r) =>
        let v := withOne bits trail
        let d := { d with first := false, storedVal := v }
        if v = nanBits then .done { d with endOfStream := true } r else .value v d r
    else .value 0#64 { d with first := false, storedVal := 0#64 } r

/-- Case `11`, decoder/chunk_reader/elf.rs:155-179; the `u32` subtraction at line 165 panics (debug)
if the announced window does not fit. -/
def readCase3 (d : Dec) (r : BitReader) : DRes Dec :=
  match r.readBits 9 with
  | none => .err
  | some (lc, r) =>
    let lead := leadingDecode (lc >>> 6)
    let c := lc &&& 0x3f
    let center := if c = 0 then 64 else c
    if 64 < lead + center then .panic
    else
      let trail := 64 - lead - center
      match r.readBits (center - 1) with
      | none => .err
      | some (bits, r) => finish { d with storedLz := lead, storedTz := trail } r (withOne bits trail)

/-- Case `10`, decoder/chunk_reader/elf.rs:180-207. -/
def readCase2 (d : Dec) (r : BitReader) : DRes Dec :=
  match r.readBits 7 with
  | none => .err
  | some (lc, r) =>
    let lead := leadingDecode (lc >>> 4)
    let c := lc &&& 0xf
    let center := if c = 0 then 16 else c
    let trail := 64 - lead - center
    let d := { d with storedLz := lead, storedTz := trail }
    if center = 1 then finish d r (BitVec.ofNat 64 (1 <<< trail))
    else
      match r.readBits (center - 1) with
      | none => .err
      | some (bits, r) => finish d r (withOne bits trail)

/-- Case `00`, decoder/chunk_reader/elf.rs:211-225; the `u32` subtraction at line 213 panics (debug)
if no window has been announced yet. -/
def readCase0 (d : Dec) (r : BitReader) : DRes Dec :=
  if 64 < d.storedLz + d.storedTz then .panic
  else
    match r.readBits (64 - d.storedLz - d.storedTz) with
    | none => .err
    | some (bits, r) => finish d r (BitVec.ofNat 64 (bits <<< d.storedTz))

/-- `decompress_float_inner`, decoder/chunk_reader/elf.rs:149-229. -/
def readInner (d : Dec) (r : BitReader) : DRes Dec :=
  match r.readBits 2 with
  | none => .err
  | some (flag, r) =>
    match flag with
    | 3 => readCase3 d r
    | 2 => readCase2 d r
    | 1 => .value d.storedVal d r
    | _ => readCase0 d r

/-- `decompress_float`, decoder/chunk_reader/elf.rs:239-249. -/
def next (d : Dec) (r : BitReader) : DRes Dec :=
  if d.endOfStream then .done d r
  else if d.first then readFirst d r else readInner d r

/-- The Elf XOR layer as an instance of the XOR traits, compressor/elf.rs:361-386. -/
def codec : XorCodec where
  S := Enc
  D := Dec
  init := Enc.new
  compressFloat := compressFloat
  close := close
  simulateClose := simulateClose
  dinit := Dec.new
  next := next

/-! ## Laws -/

def Inv (s : Enc) : Prop :=
  (s.storedLz = u32Max ∧ s.storedTz = u32Max) ∨ (s.storedLz ≤ 24 ∧ s.storedLz + s.storedTz ≤ 63)

def emitFirst (v : B64) : List Bool :=
  let trail := tz64 v.toNat
  if trail < 64 then natBits trail 7 ++ natBits (v.toNat >>> ((trail + 1) % 64)) (63 - trail)
  else natBits trail 7

def emitNext (s : Enc) (v : B64) : List Bool :=
  let xor := (s.storedVal ^^^ v).toNat
  if xor = 0 then natBits 1 2
  else
    let lead := roundLz xor
    let trail := tz64 xor
    if lead = s.storedLz ∧ s.storedTz ≤ trail then
      natBits 0 2 ++ natBits (xor >>> s.storedTz) (64 - s.storedLz - s.storedTz)
    else
      let center := 64 - lead - trail
      let rep := leadingRepr lead
      if center ≤ 16 then
        natBits ((((2 <<< 3) ||| rep) <<< 4) ||| (center &&& 0xf)) 9 ++
          natBits (xor >>> ((trail + 1) % 64)) (center - 1)
      else
        natBits ((((3 <<< 3) ||| rep) <<< 6) ||| (center &&& 0x3f)) 11 ++
          natBits (xor >>> ((trail + 1) % 64)) (center - 1)

def emit (s : Enc) (v : B64) : List Bool :=
  if s.first then emitFirst v else emitNext s v

def nextS (s : Enc) (v : B64) : Enc := (compressFloat s BitWriter.new v).1

theorem compress_state (s : Enc) (w : BitWriter) (v : B64) : (compressFloat s w v).1 = nextS s v := by
  unfold nextS compressFloat writeFirst compressInner
  split
  · simp only; split <;> rfl
  · simp only
    split
    · rfl
    · split
      · rfl
      · split <;> rfl

/-- A value below `2^c` written in `c + 2` bits starts with two zero bits. -/
theorem natBits_two_zero {v c : Nat} (h : v < 2 ^ c) : natBits v (2 + c) = natBits 0 2 ++ natBits v c := by
  rw [natBits_append, Nat.shiftRight_eq_div_pow, Nat.div_eq_of_lt h]

theorem compress_rep {s : Enc} {w : BitWriter} {bs : List Bool} (v : B64) (hi : Inv s) (h : w.Rep bs) :
    (compressFloat s w v).2.1.Rep (bs ++ emit s v) := by
  unfold compressFloat emit writeFirst compressInner emitNext emitFirst
  split
  · simp only
    split
    · simpa using BitWriter.rep_writeBits (BitWriter.rep_writeBits h _ _) _ _
    · exact BitWriter.rep_writeBits h _ _
  · simp only
    by_cases h0 : (s.storedVal ^^^ v).toNat = 0
    · simp only [h0, if_true]
      exact BitWriter.rep_writeBits h _ _
    · simp only [h0, if_false]
      have hx := (s.storedVal ^^^ v).isLt
      have hl24 := roundLz_le h0
      split
      · rename_i hw
        have hinv : s.storedLz + s.storedTz ≤ 63 := by
          rcases hi with hi | hi
          · have := hi.1; have := hw.1; unfold u32Max at *; omega
          · exact hi.2
        simp only
        split
        · simpa using BitWriter.rep_writeBits (BitWriter.rep_writeBits h _ _) _ _
        · have hlt : (s.storedVal ^^^ v).toNat >>> s.storedTz < 2 ^ (64 - s.storedLz - s.storedTz) := by
            rw [← hw.1]
            exact shiftRight_lt (lt_of_roundLz h0 hx) (by omega)
          rw [← natBits_two_zero hlt]
          exact BitWriter.rep_writeBits h _ _
      · split
        · simpa using BitWriter.rep_writeBits (BitWriter.rep_writeBits h _ _) _ _
        · simpa using BitWriter.rep_writeBits (BitWriter.rep_writeBits h _ _) _ _

theorem inv_nextS {s : Enc} (h : Inv s) (v : B64) : Inv (nextS s v) := by
  unfold nextS compressFloat writeFirst compressInner
  split
  · simp only; split <;> exact h
  · simp only
    split
    · exact h
    · rename_i h0
      split
      · exact h
      · have h1 := roundLz_le h0
        have h2 := roundLz_le_lz h0
        have h3 := lz_tz h0 (s.storedVal ^^^ v).isLt
        split <;> exact Or.inr ⟨h1, by simp only; omega⟩

theorem simulate_eq {s : Enc} (_ : Inv s) (w : BitWriter) (v : B64) :
    simulateCompressFloat s v = (emit s v).length ∧
    (compressFloat s w v).2.2 = (emit s v).length := by
  unfold simulateCompressFloat compressFloat emit writeFirst compressInner emitNext emitFirst
  split
  · simp only
    split
    · simp; omega
    · simp
  · simp only
    split
    · simp
    · rename_i h0
      have h1 := roundLz_le h0
      have h2 := roundLz_le_lz h0
      have h3 := lz_tz h0 (s.storedVal ^^^ v).isLt
      split
      · simp
      · split
        · simp only [List.length_append, natBits_length]; omega
        · simp only [List.length_append, natBits_length]; omega

structure Sim (s : Enc) (d : Dec) : Prop where
  inv : Inv s
  value : d.storedVal = s.storedVal
  first : d.first = s.first
  done : d.endOfStream = false
  notNan : s.storedVal ≠ nanBits
  window : s.storedLz ≤ 24 → d.storedLz = s.storedLz ∧ d.storedTz = s.storedTz

/-- Dropping the lowest set bit and everything below loses nothing. -/
theorem withOne_eq {x : Nat} (h0 : x ≠ 0) (hx : x < 2 ^ 64) :
    withOne ((x >>> ((tz64 x + 1) % 64)) % 2 ^ (63 - tz64 x)) (tz64 x) = BitVec.ofNat 64 x := by
  unfold withOne
  congr 1
  have ht := tz64_lt h0 hx
  have hodd := tz64_odd h0 hx
  have hd := tz64_dvd x
  have hq : x = x / 2 ^ tz64 x * 2 ^ tz64 x := (Nat.div_mul_cancel hd).symm
  have hqlt : x / 2 ^ tz64 x < 2 ^ (64 - tz64 x) := by
    rw [Nat.div_lt_iff_lt_mul (Nat.two_pow_pos _), ← Nat.pow_add]
    rwa [show 64 - tz64 x + tz64 x = 64 by omega]
  generalize hqd : x / 2 ^ tz64 x = q at *
  have key : (x >>> ((tz64 x + 1) % 64)) % 2 ^ (63 - tz64 x) = q / 2 := by
    by_cases h63 : tz64 x = 63
    · rw [h63] at hqlt ⊢
      simp at hqlt
      simp [Nat.mod_one]
      omega
    · rw [Nat.mod_eq_of_lt (by omega : tz64 x + 1 < 64), Nat.shiftRight_eq_div_pow, Nat.pow_succ,
        ← Nat.div_div_eq_div_mul, hqd]
      apply Nat.mod_eq_of_lt
      rw [Nat.div_lt_iff_lt_mul (by omega), ← Nat.pow_succ]
      rwa [show (63 - tz64 x).succ = 64 - tz64 x by omega]
  rw [key, Nat.shiftLeft_eq _ 1]
  have : q / 2 * 2 ^ 1 ||| 1 = q := by
    have e := Nat.two_pow_add_eq_or_of_lt (i := 1) (b := 1) (by omega) (q / 2)
    rw [Nat.mul_comm] at e
    rw [← e]; omega
  rw [this, Nat.shiftLeft_eq, ← hq]

theorem natBits_modEq {a b n : Nat} (h : a % 2 ^ n = b % 2 ^ n) : natBits a n = natBits b n := by
  rw [← natBits_mod a, ← natBits_mod b, h]

/-- Header word of case `10`. -/
theorem head2 {rep c : Nat} (hr : rep < 8) (hc : c < 16) :
    natBits ((((2 <<< 3) ||| rep) <<< 4) ||| c) 9 = true :: false :: natBits (16 * rep + c) 7 := by
  have : ∀ rep < 8, ∀ c < 16,
      natBits ((((2 <<< 3) ||| rep) <<< 4) ||| c) 9 = true :: false :: natBits (16 * rep + c) 7 := by
    decide +kernel
  exact this rep hr c hc

/-- Header word of case `11`. -/
theorem head3 {rep c : Nat} (hr : rep < 8) (hc : c < 64) :
    natBits ((((3 <<< 3) ||| rep) <<< 6) ||| c) 11 = true :: true :: natBits (64 * rep + c) 9 := by
  have : ∀ rep < 8, ∀ c < 64,
      natBits ((((3 <<< 3) ||| rep) <<< 6) ||| c) 11 = true :: true :: natBits (64 * rep + c) 9 := by
    decide +kernel
  exact this rep hr c hc

/-- Reading back what `compress_float` emitted. -/
theorem read_emit {s : Enc} {d : Dec} {r : BitReader} {t : List Bool} (v : B64)
    (h : Sim s d) (hr : r.At (emit s v ++ t)) :
    (v ≠ nanBits → ∃ d' r', next d r = .value v d' r' ∧ r'.At t ∧ Sim (nextS s v) d') ∧
    (v = nanBits → ∃ d' r', next d r = .done d' r' ∧ r'.At t) := by
  have hinv' := inv_nextS h.inv v
  unfold next
  rw [if_neg (by simp [h.done]), h.first]
  unfold nextS compressFloat at hinv' ⊢
  unfold emit at hr
  by_cases hf : s.first = true
  · simp only [hf, if_true] at hr hinv' ⊢
    unfold emitFirst at hr
    unfold writeFirst at hinv' ⊢
    by_cases ht : tz64 v.toNat < 64
    · simp only [if_pos ht] at hr hinv' ⊢
      rw [List.append_assoc] at hr
      have h0 : v.toNat ≠ 0 := by
        intro h0; rw [h0] at ht; revert ht; decide
      have hb1 := hr.readBits_lt (by omega) (by omega)
      have hb2 := hb1.2.readBits (by omega)
      have hval : withOne ((v.toNat >>> ((tz64 v.toNat + 1) % 64)) % 2 ^ (63 - tz64 v.toNat)) (tz64 v.toNat) = v := by
        rw [withOne_eq h0 v.isLt]; simp
      unfold readFirst
      simp only [hb1.1, if_pos ht, hb2.1, hval]
      refine ⟨fun hv => ⟨{ d with first := false, storedVal := v }, _, by simp [hv], hb2.2, ?_⟩,
        fun hv => ⟨_, _, by rw [if_pos hv], hb2.2⟩⟩
      exact ⟨hinv', rfl, rfl, h.done, hv, h.window⟩
    · simp only [if_neg ht] at hr hinv' ⊢
      have h0 : v.toNat = 0 := by
        apply Decidable.byContradiction
        intro h0
        exact ht (tz64_lt h0 v.isLt)
      have hv0 : v = 0#64 := BitVec.eq_of_toNat_eq (by simpa using h0)
      have hb1 := hr.readBits_lt (by omega) (by rw [h0]; decide)
      unfold readFirst
      simp only [hb1.1, if_neg ht]
      refine ⟨fun hv => ⟨{ d with first := false, storedVal := 0#64 }, _, by rw [hv0], hb1.2, ?_⟩,
        fun hv => by rw [hv0] at hv; exact absurd hv (by decide)⟩
      exact ⟨hinv', hv0.symm, rfl, h.done, hv, h.window⟩
  · simp only [hf, Bool.false_eq_true, if_false] at hr hinv' ⊢
    unfold emitNext at hr
    unfold compressInner at hinv' ⊢
    have hd1 : d.first = false := by rw [h.first]; simpa using hf
    by_cases h0 : (s.storedVal ^^^ v).toNat = 0
    · simp only [h0, if_true] at hr hinv' ⊢
      have hv := xor_eq_zero.1 h0
      have hb := hr.readBits_lt (by omega) (by omega)
      simp only [readInner, hb.1]
      refine ⟨fun _ => ⟨d, _, by rw [h.value, hv], hb.2, ?_⟩,
        fun hn => absurd (hv.trans hn) h.notNan⟩
      exact ⟨hinv', h.value, h.first, h.done, h.notNan, h.window⟩
    · simp only [h0, if_false] at hr hinv' ⊢
      have hx := (s.storedVal ^^^ v).isLt
      have hl24 := roundLz_le h0
      have hllz := roundLz_le_lz h0
      have hlt63 := lz_tz h0 hx
      have hrep := repr_lt h0
      have hdec := decode_repr h0
      have hback : BitVec.ofNat 64 (s.storedVal ^^^ v).toNat ^^^ s.storedVal = v := by
        rw [BitVec.ofNat_toNat, BitVec.setWidth_eq, BitVec.xor_comm, ← BitVec.xor_assoc]; simp
      by_cases hw : roundLz (s.storedVal ^^^ v).toNat = s.storedLz ∧
          s.storedTz ≤ tz64 (s.storedVal ^^^ v).toNat
      · simp only [if_pos hw] at hr hinv' ⊢
        have hinv : s.storedLz + s.storedTz ≤ 63 := by
          rcases h.inv with hi | hi
          · have := hi.1; have := hw.1; unfold u32Max at *; omega
          · exact hi.2
        obtain ⟨w1, w2⟩ := h.window (by omega)
        have hlt : (s.storedVal ^^^ v).toNat >>> s.storedTz < 2 ^ (64 - s.storedLz - s.storedTz) := by
          rw [← hw.1]
          exact shiftRight_lt (lt_of_roundLz h0 hx) (by omega)
        rw [List.append_assoc] at hr
        have hb1 := hr.readBits_lt (by omega) (by omega)
        have hb2 := hb1.2.readBits_lt (by omega) hlt
        have hfin : BitVec.ofNat 64 (((s.storedVal ^^^ v).toNat >>> s.storedTz) <<< s.storedTz) ^^^
            s.storedVal = v := by rw [shift_back hw.2, hback]
        simp only [readInner, hb1.1, readCase0, w1, w2]
        rw [if_neg (by omega)]
        simp only [hb2.1, finish, h.value, hfin]
        refine ⟨fun hv => ⟨{ d with storedVal := v }, _, ?_, hb2.2, ?_⟩,
          fun hv => ⟨_, _, by rw [if_pos hv], hb2.2⟩⟩
        · rw [if_neg hv]
        · exact ⟨hinv', rfl, h.first, h.done, hv, h.window⟩
      · simp only [if_neg hw] at hr hinv' ⊢
        have hwin := withOne_eq h0 hx
        by_cases hc : 64 - roundLz (s.storedVal ^^^ v).toNat - tz64 (s.storedVal ^^^ v).toNat ≤ 16
        · simp only [if_pos hc] at hr hinv' ⊢
          have hand : (64 - roundLz (s.storedVal ^^^ v).toNat - tz64 (s.storedVal ^^^ v).toNat) &&& 15
              = (64 - roundLz (s.storedVal ^^^ v).toNat - tz64 (s.storedVal ^^^ v).toNat) % 16 :=
            Nat.and_two_pow_sub_one_eq_mod _ 4
          rw [hand, head2 hrep (Nat.mod_lt _ (by omega))] at hr
          simp only [List.cons_append, List.append_assoc] at hr
          generalize hX : (s.storedVal ^^^ v).toNat = X at *
          generalize hL : roundLz X = L at *
          generalize hT : tz64 X = T at *
          have hb1 := BitReader.At.read2 hr
          simp only [Bool.toNat_true, Bool.toNat_false, Nat.reduceMul, Nat.reduceAdd] at hb1
          have hb2 := hb1.2.readBits_lt (by omega) (by omega)
          have hb3 := hb2.2.readBits (by omega)
          have e1 : (16 * leadingRepr L + (64 - L - T) % 16) >>> 4 = leadingRepr L := by
            rw [Nat.shiftRight_eq_div_pow]; omega
          have e2 : (16 * leadingRepr L + (64 - L - T) % 16) &&& 15 = (64 - L - T) % 16 := by
            rw [Nat.and_two_pow_sub_one_eq_mod _ 4]; omega
          have e3 : (if (64 - L - T) % 16 = 0 then 16 else (64 - L - T) % 16) = 64 - L - T := by
            split <;> omega
          have e4 : 64 - L - (64 - L - T) = T := by omega
          -- the mantissa bits, with the width in terms of the trailing zeros
          have hval : withOne (X >>> ((T + 1) % 64) % 2 ^ (64 - L - T - 1)) T ^^^ s.storedVal = v := by
            have hmod : X >>> ((T + 1) % 64) % 2 ^ (64 - L - T - 1) = X >>> ((T + 1) % 64) % 2 ^ (63 - T) := by
              by_cases h63 : T = 63
              · have : L = 0 := by omega
                subst this; subst h63; rfl
              · have hXL : X < 2 ^ (64 - L) := by
                  rw [← hL]; exact lt_of_roundLz h0 hx
                have hlt : X >>> (T + 1) < 2 ^ (64 - L - (T + 1)) := shiftRight_lt hXL (by omega)
                rw [Nat.mod_eq_of_lt (by omega : T + 1 < 64),
                  Nat.mod_eq_of_lt (by rw [show 64 - L - T - 1 = 64 - L - (T + 1) by omega]; exact hlt),
                  Nat.mod_eq_of_lt]
                exact Nat.lt_of_lt_of_le hlt (Nat.pow_le_pow_right (by omega) (by omega))
            rw [hmod, hwin, hback]
          simp only [readInner, hb1.1, readCase2, hb2.1, e1, e2, e3, e4, hdec]
          have hbr : (if 64 - L - T = 1 then
              finish { d with storedLz := L, storedTz := T } ((r.adv 2).adv 7) (BitVec.ofNat 64 (1 <<< T))
            else match ((r.adv 2).adv 7).readBits (64 - L - T - 1) with
              | none => DRes.err
              | some (bits, r) => finish { d with storedLz := L, storedTz := T } r (withOne bits T))
            = finish { d with storedLz := L, storedTz := T } (((r.adv 2).adv 7).adv (64 - L - T - 1))
                (withOne (X >>> ((T + 1) % 64) % 2 ^ (64 - L - T - 1)) T) := by
            by_cases h1 : 64 - L - T = 1
            · rw [if_pos h1, h1]
              simp only [Nat.sub_self, Nat.pow_zero, Nat.mod_one, withOne, Nat.zero_shiftLeft, Nat.zero_or]
              have := hb3.2
              rw [h1] at this
              simp only [Nat.sub_self] at this
              rw [BitReader.adv_zero _ hb2.2.1.1]
            · rw [if_neg h1, hb3.1]
          rw [hbr]
          simp only [finish, h.value, hval]
          refine ⟨fun hv => ⟨{ d with storedLz := L, storedTz := T, storedVal := v }, _, ?_, hb3.2, ?_⟩,
            fun hv => ⟨_, _, by rw [if_pos hv], hb3.2⟩⟩
          · rw [if_neg hv]
          · exact ⟨hinv', rfl, h.first, h.done, hv, fun _ => ⟨rfl, rfl⟩⟩
        · simp only [if_neg hc] at hr hinv' ⊢
          have hand : (64 - roundLz (s.storedVal ^^^ v).toNat - tz64 (s.storedVal ^^^ v).toNat) &&& 63
              = (64 - roundLz (s.storedVal ^^^ v).toNat - tz64 (s.storedVal ^^^ v).toNat) % 64 :=
            Nat.and_two_pow_sub_one_eq_mod _ 6
          rw [hand, head3 hrep (Nat.mod_lt _ (by omega))] at hr
          simp only [List.cons_append, List.append_assoc] at hr
          generalize hX : (s.storedVal ^^^ v).toNat = X at *
          generalize hL : roundLz X = L at *
          generalize hT : tz64 X = T at *
          have hb1 := BitReader.At.read2 hr
          simp only [Bool.toNat_true, Nat.reduceMul, Nat.reduceAdd] at hb1
          have hb2 := hb1.2.readBits_lt (by omega) (by omega)
          have hb3 := hb2.2.readBits (by omega)
          have e1 : (64 * leadingRepr L + (64 - L - T) % 64) >>> 6 = leadingRepr L := by
            rw [Nat.shiftRight_eq_div_pow]; omega
          have e2 : (64 * leadingRepr L + (64 - L - T) % 64) &&& 63 = (64 - L - T) % 64 := by
            rw [Nat.and_two_pow_sub_one_eq_mod _ 6]; omega
          have e3 : (if (64 - L - T) % 64 = 0 then 64 else (64 - L - T) % 64) = 64 - L - T := by
            split <;> omega
          have e4 : 64 - L - (64 - L - T) = T := by omega
          have hval : withOne (X >>> ((T + 1) % 64) % 2 ^ (64 - L - T - 1)) T ^^^ s.storedVal = v := by
            have hmod : X >>> ((T + 1) % 64) % 2 ^ (64 - L - T - 1) = X >>> ((T + 1) % 64) % 2 ^ (63 - T) := by
              have hXL : X < 2 ^ (64 - L) := by
                rw [← hL]; exact lt_of_roundLz h0 hx
              have hlt : X >>> (T + 1) < 2 ^ (64 - L - (T + 1)) := shiftRight_lt hXL (by omega)
              rw [Nat.mod_eq_of_lt (by omega : T + 1 < 64),
                Nat.mod_eq_of_lt (by rw [show 64 - L - T - 1 = 64 - L - (T + 1) by omega]; exact hlt),
                Nat.mod_eq_of_lt]
              exact Nat.lt_of_lt_of_le hlt (Nat.pow_le_pow_right (by omega) (by omega))
            rw [hmod, hwin, hback]
          simp only [readInner, hb1.1, readCase3, hb2.1, e1, e2, e3, e4, hdec]
          rw [if_neg (by omega)]
          simp only [hb3.1, finish, h.value, hval]
          refine ⟨fun hv => ⟨{ d with storedLz := L, storedTz := T, storedVal := v }, _, ?_, hb3.2, ?_⟩,
            fun hv => ⟨_, _, by rw [if_pos hv], hb3.2⟩⟩
          · rw [if_neg hv]
          · exact ⟨hinv', rfl, h.first, h.done, hv, fun _ => ⟨rfl, rfl⟩⟩

def encLaws : codec.EncLaws where
  emit := emit
  closeBits s := emit s nanBits ++ [false]
  nextS := nextS
  Inv := Inv
  inv_init := Or.inl ⟨rfl, rfl⟩
  inv_next v h := inv_nextS h v
  compress_state := compress_state
  compress_rep v hi h := compress_rep v hi h
  close_rep {s w bs} hi h := by
    have := BitWriter.rep_writeBit (compress_rep (s := s) nanBits hi h) false
    rw [List.append_assoc] at this
    exact this
  simulateClose_eq {s} h := by
    have := (simulate_eq h BitWriter.new nanBits).1
    simp only [codec, simulateClose, this, List.length_append, List.length_singleton]
  emit_pos s v := by
    unfold emit emitNext emitFirst
    split
    · simp only
      split <;> simp only [List.length_append, natBits_length] <;> omega
    · simp only
      split
      · simp
      · split
        · simp only [List.length_append, natBits_length]; omega
        · split <;> simp only [List.length_append, natBits_length] <;> omega

def laws : codec.Laws where
  toEncLaws := encLaws
  Sim := Sim
  Ok v := v ≠ nanBits
  sim_inv h := h.inv
  sim_init := ⟨Or.inl ⟨rfl, rfl⟩, rfl, rfl, rfl, by decide, fun h => by
    simp [codec, Enc.new, u32Max] at h⟩
  next_value v hv h hr := (read_emit v h hr).1 hv
  next_nan h hr := ((read_emit nanBits h hr).2 rfl).imp fun _ h => h.imp fun _ h => h.1
  endBits s := emit s nanBits
  closeBits_eq _ := rfl
  next_close h hr := (read_emit nanBits h hr).2 rfl

theorem finish_reader {d : Dec} {r : BitReader} {x v d' r'} (h : finish d r x = .value v d' r') :
    r' = r := by
  unfold finish at h
  simp only at h
  split at h
  · cases h
  · cases h; rfl

theorem readFirst_progress {d : Dec} {r : BitReader} {v d' r'} (hr : r.WF)
    (h : readFirst d r = .value v d' r') : r'.WF ∧ r'.rest.length < r.rest.length := by
  unfold readFirst at h
  split at h
  · cases h
  · rename_i hb
    have p1 := BitReader.readBits_progress hr hb
    simp only at p1
    split at h
    · split at h
      · cases h
      · rename_i hb2
        have p2 := BitReader.readBits_progress p1.1 hb2
        simp only at p2 h
        split at h
        · cases h
        · cases h; exact ⟨p2.1, by omega⟩
    · cases h; exact ⟨p1.1, by omega⟩

theorem readCase3_progress {d : Dec} {r : BitReader} {v d' r'} (hr : r.WF)
    (h : readCase3 d r = .value v d' r') : r'.WF ∧ r'.rest.length ≤ r.rest.length := by
  unfold readCase3 at h
  split at h
  · cases h
  · rename_i hb
    have p1 := BitReader.readBits_progress hr hb
    simp only at p1 h
    generalize (if _ = 0 then 64 else _ : Nat) = c at h
    split at h
    · cases h
    · split at h
      · cases h
      · rename_i hb2
        have p2 := BitReader.readBits_progress p1.1 hb2
        simp only at p2
        have := finish_reader h
        subst this
        exact ⟨p2.1, by omega⟩

theorem readCase2_progress {d : Dec} {r : BitReader} {v d' r'} (hr : r.WF)
    (h : readCase2 d r = .value v d' r') : r'.WF ∧ r'.rest.length ≤ r.rest.length := by
  unfold readCase2 at h
  split at h
  · cases h
  · rename_i hb
    have p1 := BitReader.readBits_progress hr hb
    simp only at p1 h
    generalize (if _ = 0 then 16 else _ : Nat) = c at h
    split at h
    · have := finish_reader h
      subst this
      exact ⟨p1.1, by omega⟩
    · split at h
      · cases h
      · rename_i hb2
        have p2 := BitReader.readBits_progress p1.1 hb2
        simp only at p2
        have := finish_reader h
        subst this
        exact ⟨p2.1, by omega⟩

theorem readCase0_progress {d : Dec} {r : BitReader} {v d' r'} (hr : r.WF)
    (h : readCase0 d r = .value v d' r') : r'.WF ∧ r'.rest.length ≤ r.rest.length := by
  unfold readCase0 at h
  split at h
  · cases h
  · split at h
    · cases h
    · rename_i hb2
      have p2 := BitReader.readBits_progress hr hb2
      simp only at p2
      have := finish_reader h
      subst this
      exact ⟨p2.1, by omega⟩

theorem next_progress {d : Dec} {r : BitReader} {v d' r'} (hr : r.WF)
    (h : next d r = .value v d' r') : r'.WF ∧ r'.rest.length < r.rest.length := by
  unfold next at h
  split at h
  · cases h
  · split at h
    · exact readFirst_progress hr h
    · unfold readInner at h
      split at h
      · cases h
      · rename_i hb
        have p1 := BitReader.readBits_progress hr hb
        simp only at p1
        split at h
        · have := readCase3_progress p1.1 h; exact ⟨this.1, by omega⟩
        · have := readCase2_progress p1.1 h; exact ⟨this.1, by omega⟩
        · cases h; exact ⟨p1.1, by omega⟩
        · have := readCase0_progress p1.1 h; exact ⟨this.1, by omega⟩

theorem progress : codec.Progress := fun hr h => next_progress hr h

end ElfXor
end Ebi
