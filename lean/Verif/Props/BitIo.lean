import Verif.BitReader

/-!
# C01–C04: bit stream I/O
-/

namespace Ebi.Props

open Ebi

/-- A write call. -/
inductive WOp where
  | bit (b : Bool)
  | byte (b : Byte)
  | bits (v n : Nat)

namespace WOp

/-- Run the write call on the modelled writer. -/
def write (w : BitWriter) : WOp → BitWriter
  | bit b => w.writeBit b
  | byte b => w.writeByte b
  | bits v n => w.writeBits v n

/-- The matching read call on the modelled reader. -/
def read (r : BitReader) : WOp → Option (Nat × BitReader)
  | bit _ => r.readBit.map fun (b, r) => (b.toNat, r)
  | byte _ => r.readByte.map fun (b, r) => (b.toNat, r)
  | bits _ n => r.readBits n

/-- Specification: the number of bits the call is about. -/
def width : WOp → Nat
  | bit _ => 1
  | byte _ => 8
  | bits _ n => n

/-- Specification: the value the matching read must return (the argument truncated to the width). -/
def value : WOp → Nat
  | bit b => b.toNat
  | byte b => b.toNat
  | bits v n => v % 2 ^ n

end WOp

/-- All the write calls in sequence. -/
def writeAll (w : BitWriter) (ops : List WOp) : BitWriter := ops.foldl WOp.write w

/-- All the matching read calls in sequence, collecting the values; `none` if any read fails. -/
def readAll : BitReader → List WOp → Option (List Nat)
  | _, [] => some []
  | r, op :: ops =>
    match op.read r with
    | none => none
    | some (v, r') => (readAll r' ops).map (v :: ·)

/-- Total number of bits of a sequence of calls. -/
def totalWidth (ops : List WOp) : Nat := (ops.map WOp.width).sum

/-- The bits a call denotes. -/
private def opBits (op : WOp) : List Bool := natBits op.value op.width

private theorem rep_write {w : BitWriter} {bs : List Bool} (h : w.Rep bs) (op : WOp) :
    (op.write w).Rep (bs ++ opBits op) := by
  cases op with
  | bit b =>
    have := BitWriter.rep_writeBit h b
    have e : opBits (.bit b) = [b] := by cases b <;> rfl
    rwa [e]
  | byte b => exact BitWriter.rep_writeByte h b
  | bits v n =>
    have := BitWriter.rep_writeBits h v n
    simpa [opBits, WOp.value, WOp.width, natBits_mod, WOp.write] using this

private theorem rep_writeAll {w : BitWriter} {bs : List Bool} (h : w.Rep bs) (ops : List WOp) :
    (writeAll w ops).Rep (bs ++ ops.flatMap opBits) := by
  induction ops generalizing w bs with
  | nil => simpa [writeAll] using h
  | cons op ops ih =>
    have := ih (rep_write h op)
    simpa [writeAll] using this

private theorem read_at {r : BitReader} {t : List Bool} (op : WOp) (hop : op.width ≤ 64)
    (h : r.At (opBits op ++ t)) : op.read r = some (op.value, r.adv op.width) ∧
      (r.adv op.width).At t := by
  cases op with
  | bit b =>
    have e : opBits (.bit b) = [b] := by cases b <;> rfl
    rw [e] at h
    have := h.readBit
    exact ⟨by simp [WOp.read, this.1, WOp.value, WOp.width], this.2⟩
  | byte b =>
    refine ⟨?_, h.adv (by simp [opBits])⟩
    have hl : 8 ≤ r.rest.length := by rw [h.2]; simp [opBits, WOp.width]
    have ht : r.rest.take 8 = byteBits b := by
      rw [h.2, List.take_left' (by simp [opBits, WOp.width])]; rfl
    simp only [WOp.read, BitReader.readByte]
    rw [BitReader.readByteRaw_eq h.1, if_neg (by omega), ht, byteBits, bitsNat_natBits]
    simp [WOp.value, WOp.width]
    have := b.isLt; omega
  | bits v n =>
    have e : opBits (.bits v n) = natBits v n := by simp [opBits, WOp.value, WOp.width, natBits_mod]
    rw [e] at h
    exact h.readBits hop

private theorem readAll_at {r : BitReader} {t : List Bool} (ops : List WOp)
    (hops : ∀ op ∈ ops, op.width ≤ 64) (h : r.At (ops.flatMap opBits ++ t)) :
    readAll r ops = some (ops.map WOp.value) := by
  induction ops generalizing r with
  | nil => rfl
  | cons op ops ih =>
    rw [List.flatMap_cons, List.append_assoc] at h
    have := read_at op (hops op (by simp)) h
    rw [readAll, this.1]
    simp [ih (fun o ho => hops o (by simp [ho])) this.2]

private theorem flatMap_length (ops : List WOp) :
    (ops.flatMap opBits).length = totalWidth ops := by
  induction ops with
  | nil => rfl
  | cons op ops ih => simp [totalWidth, opBits] at *

/-- **C01** Bit stream round trip: reading back a written sequence gives the written values. -/
theorem c01_bit_stream_round_trip (ops : List WOp) (hw : ∀ op ∈ ops, op.width ≤ 64) :
    readAll (BitReader.new (writeAll BitWriter.new ops).asSlice) ops
      = some (ops.map WOp.value) := by
  have h := rep_writeAll BitWriter.rep_new ops
  rw [List.nil_append] at h
  apply readAll_at (t := List.replicate (8 - (writeAll BitWriter.new ops).bitPos) false) ops hw
  have := BitReader.at_new (writeAll BitWriter.new ops).asSlice
  rwa [BitWriter.asSlice, h.2.2] at this

-- the hypothesis is met by mixed, unaligned sequences
example : ∀ op ∈ [WOp.bit true, .bits 0x123456789abcdef0 61, .byte 0xa5#8, .bits 7 2],
    op.width ≤ 64 := by decide
example : readAll (BitReader.new (writeAll BitWriter.new
    [WOp.bit true, .bits 0x123456789abcdef0 61, .byte 0xa5#8, .bits 7 2]).asSlice)
    [WOp.bit true, .bits 0x123456789abcdef0 61, .byte 0xa5#8, .bits 7 2]
    = some [1, 0x123456789abcdef0, 0xa5, 3] := by decide

/-- **C02** Length accounting: the writer counts exactly the bits written, uses the fewest possible
bytes, and leaves the padding bits zero. -/
theorem c02_writer_length (ops : List WOp) :
    (writeAll BitWriter.new ops).numberOfBitsWritten = totalWidth ops ∧
    (writeAll BitWriter.new ops).asSlice.length = (totalWidth ops + 7) / 8 ∧
    ∀ i, totalWidth ops ≤ i → ∀ b, (writeAll BitWriter.new ops).asSlice[i / 8]? = some b →
      b.toNat.testBit (7 - i % 8) = false := by
  have h := rep_writeAll BitWriter.rep_new ops
  rw [List.nil_append] at h
  refine ⟨?_, ?_, ?_⟩
  · rw [BitWriter.rep_length h, flatMap_length]
  · rw [BitWriter.asSlice, BitWriter.rep_bytes_length h, flatMap_length]
  · intro i hi b hb
    have h3 := h.2.2
    simp only [BitWriter.asSlice] at hb
    have hlt : i / 8 < (writeAll BitWriter.new ops).buf.length := by
      rcases Nat.lt_or_ge (i / 8) (writeAll BitWriter.new ops).buf.length with hl | hl
      · exact hl
      · rw [List.getElem?_eq_none hl] at hb; cases hb
    have e1 := congrArg (List.drop (8 * (i / 8))) h3
    have := BitReader.drop_bytesBits (writeAll BitWriter.new ops).buf (i / 8) 0
    simp only [Nat.add_zero, List.drop_zero] at this
    rw [this, List.drop_eq_getElem_cons hlt, bytesBits_cons] at e1
    have hbe : (writeAll BitWriter.new ops).buf[i / 8] = b := by
      rw [List.getElem?_eq_getElem hlt] at hb; exact Option.some.inj hb
    rw [hbe] at e1
    have e2 := congrArg (fun l => l[i % 8]?) e1
    rw [List.getElem?_append_left (by simp; omega)] at e2
    rw [List.getElem?_eq_getElem (by simp; omega)] at e2
    have e3 : (byteBits b)[i % 8]'(by simp; omega) = b.toNat.testBit (7 - i % 8) := by
      simp only [byteBits]; rw [natBits_getElem]
    rw [e3, List.getElem?_drop, show 8 * (i / 8) + i % 8 = i by omega,
      List.getElem?_append_right (by rw [flatMap_length]; exact hi), List.getElem?_replicate] at e2
    split at e2
    · exact Option.some.inj e2
    · cases e2

/-- Specification: bit number `i` of a buffer, MSB-first. -/
def bitAt (buf : List Byte) (i : Nat) : Option Bool :=
  buf[i / 8]?.map fun b => b.toNat.testBit (7 - i % 8)

private theorem bytesBits_getElem? (buf : List Byte) (i : Nat) :
    (bytesBits buf)[i]? = bitAt buf i := by
  induction buf generalizing i with
  | nil => simp [bitAt]
  | cons b l ih =>
    rw [bytesBits_cons]
    by_cases h : i < 8
    · rw [List.getElem?_append_left (by simpa using h), List.getElem?_eq_getElem (by simpa using h)]
      simp only [byteBits]
      rw [natBits_getElem]
      simp [bitAt, show i / 8 = 0 by omega, show i % 8 = i by omega]
    · rw [List.getElem?_append_right (by simp; omega), byteBits_length, ih]
      simp only [bitAt, show i / 8 = (i - 8) / 8 + 1 by omega, show i % 8 = (i - 8) % 8 by omega,
        List.getElem?_cons_succ]

/-- **C03** (reads) For a reader whose cursor is inside its buffer, reading `n ≤ 64` bits fails
exactly when fewer than `n` bits remain; otherwise the value is the next `n` bits MSB-first and the
cursor moves by exactly `n`; the reader never panics. -/
theorem c03_read_bits (r : BitReader) (h : r.WF) (n : Nat) (hn : n ≤ 64) :
    (8 * r.buf.length - r.pos < n → r.readBitsRaw n = .eof) ∧
    (n ≤ 8 * r.buf.length - r.pos → ∃ v r', r.readBitsRaw n = .ok v r' ∧ v < 2 ^ n ∧
      r'.WF ∧ r'.buf = r.buf ∧ r'.pos = r.pos + n ∧
      ∀ i, i < n → bitAt r.buf (r.pos + i) = some (v.testBit (n - 1 - i))) := by
  rw [BitReader.readBitsRaw_eq h, BitReader.rest_length]
  refine ⟨fun hlt => by rw [if_pos hlt], fun hle => ?_⟩
  rw [if_neg (by omega)]
  have hlen : (r.rest.take n).length = n := by simp [BitReader.rest_length]; omega
  have hv : bitsNat (r.rest.take n) < 2 ^ n := by
    have := bitsNat_lt (r.rest.take n); rwa [hlen] at this
  have h64 : bitsNat (r.rest.take n) < 2 ^ 64 :=
    Nat.lt_of_lt_of_le hv (Nat.pow_le_pow_right (by omega) hn)
  refine ⟨_, _, rfl, ?_, BitReader.wf_adv h (by rw [BitReader.rest_length]; omega), rfl,
    BitReader.pos_adv r n, ?_⟩
  · rw [Nat.mod_eq_of_lt h64]; exact hv
  · intro i hi
    rw [Nat.mod_eq_of_lt h64, ← bytesBits_getElem?]
    have e := natBits_bitsNat (r.rest.take n)
    rw [hlen] at e
    have e2 : (r.rest.take n)[i]? = some ((bitsNat (r.rest.take n)).testBit (n - 1 - i)) := by
      conv => lhs; rw [← e]
      rw [List.getElem?_eq_getElem (by simpa using hi), natBits_getElem]
    rw [List.getElem?_take_of_lt hi] at e2
    rw [← e2, BitReader.rest, List.getElem?_drop]

/-- **C03** (single bit) -/
theorem c03_read_bit (r : BitReader) (h : r.WF) :
    (8 * r.buf.length ≤ r.pos → r.readBitRaw = .eof) ∧
    (r.pos < 8 * r.buf.length → ∃ b r', r.readBitRaw = .ok b r' ∧ r'.WF ∧ r'.buf = r.buf ∧
      r'.pos = r.pos + 1 ∧ bitAt r.buf r.pos = some b) := by
  rw [BitReader.readBitRaw_eq h]
  have hl := BitReader.rest_length r
  refine ⟨fun hlt => ?_, fun hle => ?_⟩
  · rw [List.eq_nil_of_length_eq_zero (l := r.rest) (by omega)]
  · cases hr : r.rest with
    | nil => rw [hr] at hl; simp at hl; omega
    | cons b t =>
      refine ⟨b, r.adv 1, rfl, BitReader.wf_adv h (by omega), rfl, BitReader.pos_adv r 1, ?_⟩
      rw [← bytesBits_getElem?]
      have : (r.rest)[0]? = some b := by rw [hr]; rfl
      rwa [BitReader.rest, List.getElem?_drop, Nat.add_zero] at this

/-- **C03** (byte) -/
theorem c03_read_byte (r : BitReader) (h : r.WF) :
    (8 * r.buf.length - r.pos < 8 → r.readByteRaw = .eof) ∧
    (8 ≤ 8 * r.buf.length - r.pos → ∃ b r', r.readByteRaw = .ok b r' ∧ r'.WF ∧ r'.buf = r.buf ∧
      r'.pos = r.pos + 8 ∧ ∀ i, i < 8 → bitAt r.buf (r.pos + i) = some (b.toNat.testBit (7 - i))) := by
  have hb := c03_read_bits r h 8 (by omega)
  rw [BitReader.readBitsRaw_eq h] at hb
  rw [BitReader.readByteRaw_eq h]
  refine ⟨fun hlt => by rw [BitReader.rest_length, if_pos hlt], fun hle => ?_⟩
  obtain ⟨v, r', hv, hlt, h1, h2, h3, h4⟩ := hb.2 hle
  have hl := BitReader.rest_length r
  rw [if_neg (by omega)] at hv ⊢
  injection hv with hv hr
  have hlen : (r.rest.take 8).length = 8 := by simp; omega
  have := bitsNat_lt (r.rest.take 8)
  rw [hlen] at this
  rw [Nat.mod_eq_of_lt (by omega)] at hv
  refine ⟨_, _, rfl, by rw [hr]; exact h1, by rw [hr]; exact h2, by rw [hr]; exact h3, ?_⟩
  intro i hi
  rw [h4 i hi, hv, BitVec.toNat_ofNat, Nat.mod_eq_of_lt hlt]

/-- **C03** (peek) Peeking returns what reading would return and leaves the reader unchanged. -/
theorem c03_peek (r : BitReader) (h : r.WF) (n : Nat) :
    match r.readBitsRaw n with
    | .ok v _ => r.peakBitsRaw n = .ok v r
    | .eof => r.peakBitsRaw n = .eof
    | .panic => False := by
  have hp := BitReader.readBitsRaw_eq h n
  unfold BitReader.peakBitsRaw
  rw [hp]
  by_cases hlt : r.rest.length < n
  · simp only [hlt, if_true]
  · simp only [hlt, if_false]
    rfl

/-- **C03** (reachability) A fresh reader, and a reader moved by a skip that stays inside the buffer,
have their cursor inside the buffer: the hypothesis of the theorems above is an invariant. -/
theorem c03_reachable (buf : List Byte) (r : BitReader) (n : Nat) :
    (BitReader.new buf).WF ∧ r.reset.WF ∧
    (r.WF → n ≤ 8 * r.buf.length - r.pos → (r.skipBits n).WF ∧ (r.skipBits n).pos = r.pos + n) := by
  refine ⟨BitReader.wf_new _, BitReader.wf_reset _, fun h hn => ?_⟩
  have h1 := h.1
  have h2 := h.2
  simp only [BitReader.WF, BitReader.pos, BitReader.skipBits] at *
  omega

/-- **C03** violation: after a skip past the end the next multi-bit read panics instead of
returning `None` (`usize` underflow at bit_read.rs:297). -/
theorem c03_skip_past_end_panics :
    ((BitReader.new [0xff#8]).skipBits 16).readBitsRaw 1 = .panic := by decide

example : (BitReader.new [0xab#8, 0xcd#8] |>.skipBits 3).WF := by decide

/-- **C04** Truncating at bit `k` and continuing: the writer is in exactly the state it would have
if only the first `k` bits had ever been written; nothing of the discarded tail survives. -/
theorem c04_truncate (ops ops' : List WOp) (k : Nat) (hk : totalWidth ops' = k)
    (hpre : (ops'.flatMap fun op => natBits op.value op.width)
      = (ops.flatMap fun op => natBits op.value op.width).take k) (cont : List WOp) :
    writeAll ((writeAll BitWriter.new ops).setCursorAtInBit k) cont
      = writeAll (writeAll BitWriter.new ops') cont := by
  have h := BitWriter.rep_setCursor (rep_writeAll BitWriter.rep_new ops) k
  have h' := rep_writeAll BitWriter.rep_new ops'
  rw [List.nil_append] at h h'
  have hpre' : ops'.flatMap opBits = (ops.flatMap opBits).take k := hpre
  have hlen : k ≤ (ops.flatMap opBits).length := by
    have e := congrArg List.length hpre'
    rw [flatMap_length, hk, List.length_take] at e
    omega
  rw [Nat.sub_eq_zero_of_le hlen, List.replicate_zero, List.append_nil, ← hpre'] at h
  rw [BitWriter.rep_unique h h']

example : totalWidth [WOp.bits 0b101 3] = 3 ∧
    (([WOp.bits 0b101 3]).flatMap fun op => natBits op.value op.width)
      = ([WOp.bits 0b10111 5, .byte 0xff#8].flatMap fun op => natBits op.value op.width).take 3 := by
  decide

end Ebi.Props
