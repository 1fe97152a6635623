import Verif.BitWriter

/-!
# `BufferedBitReader`  (`ebi/src/io/bit_read.rs`)
-/

namespace Ebi

/-- `struct BufferedBitReader`, bit_read.rs:96-100. -/
structure BitReader where
  buf : List Byte
  bitPos : Nat
  bytePos : Nat
deriving DecidableEq, Repr

/-- Outcome of a read call: `Some(value)` with the new reader, `None`, or a panic (index out of
bounds / unsigned underflow). -/
inductive ReadRes (α : Type) where
  | ok (a : α) (r : BitReader)
  | eof
  | panic
deriving DecidableEq, Repr

namespace BitReader

/-- `BufferedBitReader::new`, bit_read.rs:117-123. -/
def new (buf : List Byte) : BitReader := ⟨buf, 0, 0⟩

/-- `BufferedBitReader::reset`, bit_read.rs:125-128. -/
def reset (r : BitReader) : BitReader := { r with bitPos := 0, bytePos := 0 }

/-- `read_bit_unchecked`, bit_read.rs:130-141. `none`: index out of bounds panic. -/
def readBitUnchecked (r : BitReader) : Option (Bool × BitReader) :=
  match r.buf[r.bytePos]? with
  | none => none
  | some b =>
    let bit := (b >>> (7 - r.bitPos)) &&& 1#8 != 0#8
    let bitPos := r.bitPos + 1
    if bitPos = 8 then some (bit, { r with bitPos := 0, bytePos := r.bytePos + 1 })
    else some (bit, { r with bitPos := bitPos })

/-- `read_byte_unchecked`, bit_read.rs:143-159. `none`: index out of bounds panic. -/
def readByteUnchecked (r : BitReader) : Option (Byte × BitReader) :=
  match r.buf[r.bytePos]? with
  | none => none
  | some b =>
    if r.bitPos = 0 then some (b, { r with bytePos := r.bytePos + 1 })
    else
      let high := b <<< r.bitPos
      let low := match r.buf[r.bytePos + 1]? with
        | some c => c >>> (8 - r.bitPos)
        | none => 0#8
      some (high ||| low, { r with bytePos := r.bytePos + 1 })

/-- `skip_bits`, bit_read.rs:179-184. -/
def skipBits (r : BitReader) (n : Nat) : BitReader :=
  { r with bytePos := r.bytePos + (n + r.bitPos) / 8, bitPos := (n + r.bitPos) % 8 }

/-- `BitRead2::read_bit`, bit_read.rs:211-218. -/
def readBitRaw (r : BitReader) : ReadRes Bool :=
  if r.buf.length ≤ r.bytePos then .eof
  else match r.readBitUnchecked with
    | some (b, r') => .ok b r'
    | none => .panic

/-- `BitRead2::read_byte`, bit_read.rs:251-261. -/
def readByteRaw (r : BitReader) : ReadRes Byte :=
  if r.buf.length ≤ r.bytePos then .eof
  else if r.buf.length ≤ r.bytePos + 1 ∧ r.bitPos ≠ 0 then .eof
  else match r.readByteUnchecked with
    | some (b, r') => .ok b r'
    | none => .panic

/-- The bit-by-bit tail loop of `read_bits`, bit_read.rs:309-315 (`result` is a `u64`). -/
def readTail (r : BitReader) (acc : Nat) : Nat → Option (Nat × BitReader)
  | 0 => some (acc, r)
  | n + 1 =>
    match r.readBitUnchecked with
    | none => none
    | some (b, r') =>
      let acc := (acc <<< 1) % 2 ^ 64
      readTail r' (if b then acc ||| 1 else acc) n

/-- Both loops of `read_bits`, bit_read.rs:302-315 (`result << 8` on a `u64`). -/
def readLoop (r : BitReader) (acc : Nat) : Nat → Option (Nat × BitReader)
  | n + 8 =>
    match r.readByteUnchecked with
    | none => none
    | some (b, r') => readLoop r' ((acc <<< 8) % 2 ^ 64 ||| b.toNat) n
  | n => readTail r acc n

/-- `BitRead2::read_bits`, bit_read.rs:293-318. The availability test
`(len - byte_pos) * 8 - bit_pos < n` is in `usize`: both subtractions panic on underflow. -/
def readBitsRaw (r : BitReader) (n : Nat) : ReadRes Nat :=
  if r.buf.length < r.bytePos then .panic
  else if (r.buf.length - r.bytePos) * 8 < r.bitPos then .panic
  else if (r.buf.length - r.bytePos) * 8 - r.bitPos < n then .eof
  else match readLoop r 0 n with
    | some (v, r') => .ok v r'
    | none => .panic

/-- `BitRead2::peak_bits`, bit_read.rs:356-367: read, then restore the cursor. -/
def peakBitsRaw (r : BitReader) (n : Nat) : ReadRes Nat :=
  match r.readBitsRaw n with
  | .ok v r' => .ok v { r' with bytePos := r.bytePos, bitPos := r.bitPos }
  | .eof => .eof
  | .panic => .panic

/-- The reads as the decoders see them (`Option`): the panic outcome is merged with `None`; it is
unreachable from every well-formed reader (`readBitsRaw_ne_panic`, `readBitRaw_ne_panic`). -/
def readBits (r : BitReader) (n : Nat) : Option (Nat × BitReader) :=
  match r.readBitsRaw n with
  | .ok v r' => some (v, r')
  | _ => none

def readBit (r : BitReader) : Option (Bool × BitReader) :=
  match r.readBitRaw with
  | .ok v r' => some (v, r')
  | _ => none

def readByte (r : BitReader) : Option (Byte × BitReader) :=
  match r.readByteRaw with
  | .ok v r' => some (v, r')
  | _ => none

/-! ## Refinement to the list of remaining bits -/

/-- Absolute cursor in bits. -/
def pos (r : BitReader) : Nat := 8 * r.bytePos + r.bitPos

/-- The cursor is inside the buffer (or exactly at its end). -/
def WF (r : BitReader) : Prop := r.bitPos < 8 ∧ r.pos ≤ 8 * r.buf.length

instance (r : BitReader) : Decidable r.WF := inferInstanceAs (Decidable (_ ∧ _))

/-- Bits not read yet. -/
def rest (r : BitReader) : List Bool := (bytesBits r.buf).drop r.pos

/-- The reader advanced by `n` bits. -/
def adv (r : BitReader) (n : Nat) : BitReader :=
  { r with bytePos := (r.pos + n) / 8, bitPos := (r.pos + n) % 8 }

theorem wf_new (buf : List Byte) : (new buf).WF := by simp [WF, new, pos]

@[simp] theorem rest_new (buf : List Byte) : (new buf).rest = bytesBits buf := by
  simp [rest, new, pos]

theorem wf_reset (r : BitReader) : r.reset.WF := by simp [WF, reset, pos]

@[simp] theorem rest_reset (r : BitReader) : r.reset.rest = bytesBits r.buf := by
  simp [rest, reset, pos]

@[simp] theorem adv_buf (r : BitReader) (n : Nat) : (r.adv n).buf = r.buf := rfl

theorem pos_adv (r : BitReader) (n : Nat) : (r.adv n).pos = r.pos + n := by
  simp [pos, adv]; omega

theorem adv_adv (r : BitReader) (m n : Nat) : (r.adv m).adv n = r.adv (m + n) := by
  have h := pos_adv r m
  generalize hs : r.adv m = s at *
  have hb : s.buf = r.buf := by rw [← hs]; rfl
  unfold adv
  rw [h, hb, Nat.add_assoc]

theorem adv_zero (r : BitReader) (h : r.bitPos < 8) : r.adv 0 = r := by
  cases r with | mk b p q => simp [adv, pos] at *; omega

theorem rest_length (r : BitReader) : r.rest.length = 8 * r.buf.length - r.pos := by
  simp [rest]

theorem rest_adv (r : BitReader) (n : Nat) : (r.adv n).rest = r.rest.drop n := by
  simp [rest, pos_adv, List.drop_drop]

theorem wf_adv {r : BitReader} {n : Nat} (h : r.WF) (hn : n ≤ r.rest.length) : (r.adv n).WF := by
  refine ⟨?_, ?_⟩
  · show (r.pos + n) % 8 < 8
    omega
  · rw [pos_adv]; have := h.2; rw [rest_length] at hn; simp; omega

theorem drop_bytesBits (l : List Byte) (k p : Nat) :
    (bytesBits l).drop (8 * k + p) = (bytesBits (l.drop k)).drop p := by
  induction k generalizing l with
  | zero => simp
  | succ k ih =>
    cases l with
    | nil => simp
    | cons b l =>
      rw [bytesBits_cons, List.drop_append, List.drop_of_length_le (by simp; omega),
        List.drop_succ_cons, ← ih]
      simp; congr 1; omega

theorem rest_eq (r : BitReader) : r.rest = (bytesBits (r.buf.drop r.bytePos)).drop r.bitPos := by
  rw [rest, pos, drop_bytesBits]

theorem shift_bit (b : Byte) (p : Nat) (hp : p < 8) :
    ((b >>> (7 - p)) &&& 1#8 != 0#8) = (byteBits b)[p]'(by simpa using hp) := by
  simp only [byteBits]
  rw [natBits_getElem, ← BitWriter.writeBitsLoop_bit]
  have : (b >>> (7 - p) &&& 1#8).toNat = b.toNat >>> (7 - p) &&& 1 := by simp
  simp only [show 8 - 1 - p = 7 - p by omega]
  rw [← this]
  simp only [bne, Bool.not_inj_iff]
  rw [Bool.eq_iff_iff]
  simp only [beq_iff_eq]
  constructor
  · intro h; rw [h]; rfl
  · intro h; exact BitVec.eq_of_toNat_eq (by simpa using h)

theorem getElem?_of_rest {r : BitReader} (h : r.WF) (hn : 0 < r.rest.length) :
    ∃ b, r.buf[r.bytePos]? = some b ∧
      r.rest = (byteBits b).drop r.bitPos ++ bytesBits (r.buf.drop (r.bytePos + 1)) := by
  rw [rest_length] at hn
  have hlt : r.bytePos < r.buf.length := by simp [pos] at hn; omega
  refine ⟨r.buf[r.bytePos], by simp [hlt], ?_⟩
  rw [rest_eq, List.drop_eq_getElem_cons hlt, bytesBits_cons, List.drop_append_of_le_length]
  have := h.1; simp; omega

theorem readBitUnchecked_spec {r : BitReader} (h : r.WF) {b : Bool} {t : List Bool}
    (hr : r.rest = b :: t) : r.readBitUnchecked = some (b, r.adv 1) := by
  obtain ⟨c, hc, hrest⟩ := getElem?_of_rest h (by simp [hr])
  have hp := h.1
  have hb : b = (byteBits c)[r.bitPos]'(by simpa using hp) := by
    rw [hr] at hrest
    rw [List.drop_eq_getElem_cons (by simpa using hp)] at hrest
    rw [List.cons_append] at hrest
    exact (List.cons.inj hrest).1
  simp only [readBitUnchecked, hc]
  rw [shift_bit _ _ hp, ← hb]
  split <;> simp [adv, pos] <;> omega

theorem readByteUnchecked_spec {r : BitReader} (h : r.WF) (hr : 8 ≤ r.rest.length) :
    ∃ b : Byte, r.readByteUnchecked = some (b, r.adv 8) ∧ byteBits b = r.rest.take 8 := by
  obtain ⟨c, hc, hrest⟩ := getElem?_of_rest h (by omega)
  have hp := h.1
  simp only [readByteUnchecked, hc]
  by_cases h0 : r.bitPos = 0
  · refine ⟨c, ?_, ?_⟩
    · simp [h0, adv, pos]
    · rw [hrest, h0]; simp
  · simp only [h0, if_false]
    have hlt : r.bytePos + 1 < r.buf.length := by
      rw [rest_length] at hr; simp [pos] at hr; omega
    have hd : r.buf[r.bytePos + 1]? = some r.buf[r.bytePos + 1] := by simp [hlt]
    simp only [hd]
    refine ⟨c <<< r.bitPos ||| r.buf[r.bytePos + 1] >>> (8 - r.bitPos), ?_, ?_⟩
    · simp [adv, pos]; omega
    · rw [hrest, List.drop_eq_getElem_cons hlt, bytesBits_cons, BitWriter.byteBits_or,
        BitWriter.byteBits_shiftLeft _ _ (by omega), BitWriter.byteBits_shiftRight _ _ (by omega)]
      have := BitWriter.zipWith_or_append ((byteBits c).drop r.bitPos)
        ((byteBits r.buf[r.bytePos + 1]).take (8 - (8 - r.bitPos)))
      rw [show ((byteBits r.buf[r.bytePos + 1]).take (8 - (8 - r.bitPos))).length = r.bitPos by
        simp; omega, show ((byteBits c).drop r.bitPos).length = 8 - r.bitPos by simp] at this
      rw [this, List.take_append (l₁ := (byteBits c).drop r.bitPos),
        List.take_of_length_le (l := (byteBits c).drop r.bitPos) (by simp),
        List.take_append_of_le_length (by simp)]
      congr 2
      simp

theorem readTail_spec (n : Nat) {r : BitReader} (h : r.WF) (acc : Nat) (hacc : acc < 2 ^ 64)
    (hr : n ≤ r.rest.length) :
    readTail r acc n = some ((acc * 2 ^ n + bitsNat (r.rest.take n)) % 2 ^ 64, r.adv n) := by
  induction n generalizing r acc with
  | zero => simp [readTail, bitsNat, adv_zero r h.1, Nat.mod_eq_of_lt hacc]
  | succ n ih =>
    obtain ⟨b, t, hbt⟩ : ∃ b t, r.rest = b :: t := by
      cases hh : r.rest with
      | nil => simp [hh] at hr
      | cons b t => exact ⟨b, t, rfl⟩
    have hwf := wf_adv h (n := 1) (by omega)
    have hrest : (r.adv 1).rest = t := by simp [rest_adv, hbt]
    have hl : n ≤ t.length := by rw [hbt] at hr; simpa using hr
    rw [readTail, readBitUnchecked_spec h hbt]
    simp only
    have hval : (if b then (acc <<< 1) % 2 ^ 64 ||| 1 else (acc <<< 1) % 2 ^ 64)
        = (2 * acc + b.toNat) % 2 ^ 64 := by
      have e : (acc <<< 1) % 2 ^ 64 = 2 * (acc % 2 ^ 63) := by
        rw [Nat.shiftLeft_eq]; omega
      rw [e]
      cases b
      · simp; omega
      · simp only [if_true, Bool.toNat_true]
        have : 2 * (acc % 2 ^ 63) ||| 1 = 2 * (acc % 2 ^ 63) + 1 := by
          have := Nat.two_pow_add_eq_or_of_lt (i := 1) (b := 1) (by omega) (acc % 2 ^ 63)
          simpa using this.symm
        rw [this]; omega
    rw [hval, ih hwf _ (Nat.mod_lt _ (by decide)) (by rw [hrest]; exact hl), hrest, adv_adv,
      Nat.add_comm 1 n, hbt, List.take_succ_cons, bitsNat, List.length_take_of_le hl]
    congr 2
    rw [Nat.add_mod, Nat.mod_mul_mod, ← Nat.add_mod]
    congr 1
    rw [Nat.pow_succ, Nat.add_mul, Nat.mul_comm 2 acc, Nat.mul_assoc, Nat.mul_comm 2, Nat.add_assoc]

theorem readLoop_spec (n : Nat) {r : BitReader} (h : r.WF) (acc : Nat) (hacc : acc < 2 ^ 64)
    (hr : n ≤ r.rest.length) :
    readLoop r acc n = some ((acc * 2 ^ n + bitsNat (r.rest.take n)) % 2 ^ 64, r.adv n) := by
  induction n using Nat.strongRecOn generalizing r acc with
  | ind m ih =>
    unfold readLoop
    split
    · rename_i n
      obtain ⟨b, hb, hbits⟩ := readByteUnchecked_spec h (by omega)
      rw [hb]
      simp only
      have hwf := wf_adv h (n := 8) (by omega)
      have hval : (acc <<< 8) % 2 ^ 64 ||| b.toNat = (acc * 2 ^ 8 + b.toNat) % 2 ^ 64 := by
        have e : (acc <<< 8) % 2 ^ 64 = 2 ^ 8 * (acc % 2 ^ 56) := by
          rw [Nat.shiftLeft_eq]; omega
        rw [e, ← Nat.two_pow_add_eq_or_of_lt b.isLt]
        have := b.isLt
        omega
      have hlt : (acc * 2 ^ 8 + b.toNat) % 2 ^ 64 < 2 ^ 64 := Nat.mod_lt _ (by decide)
      rw [hval, ih n (by omega) hwf _ hlt (by rw [rest_adv]; simp; omega), adv_adv, rest_adv,
        Nat.add_comm 8 n]
      congr 2
      have et : r.rest.take (n + 8) = byteBits b ++ (r.rest.drop 8).take n := by
        rw [hbits, Nat.add_comm, List.take_add]
      rw [et, bitsNat_append]
      rw [show bitsNat (byteBits b) = b.toNat by
        rw [byteBits, bitsNat_natBits]; exact Nat.mod_eq_of_lt b.isLt]
      rw [show ((r.rest.drop 8).take n).length = n by simp; omega]
      rw [Nat.add_mod, Nat.mod_mul_mod, ← Nat.add_mod]
      congr 1
      rw [show (2 : Nat) ^ n.succ.succ.succ.succ.succ.succ.succ.succ = 2 ^ 8 * 2 ^ n by
        rw [← Nat.pow_add, Nat.add_comm], Nat.add_mul, Nat.mul_assoc, Nat.add_assoc]
    · exact readTail_spec _ h acc hacc hr

theorem avail_eq {r : BitReader} (h : r.WF) :
    r.bytePos ≤ r.buf.length ∧ r.bitPos ≤ (r.buf.length - r.bytePos) * 8 ∧
    (r.buf.length - r.bytePos) * 8 - r.bitPos = r.rest.length := by
  have h1 := h.1
  have h2 := h.2
  rw [rest_length]
  simp only [pos] at *
  omega

/-- Complete description of `read_bits` on a well-formed reader. -/
theorem readBitsRaw_eq {r : BitReader} (h : r.WF) (n : Nat) :
    r.readBitsRaw n =
      if r.rest.length < n then .eof
      else .ok (bitsNat (r.rest.take n) % 2 ^ 64) (r.adv n) := by
  obtain ⟨a1, a2, a3⟩ := avail_eq h
  unfold readBitsRaw
  rw [if_neg (by omega), if_neg (by omega), a3]
  split
  · rfl
  · rw [readLoop_spec n h 0 (by decide) (by omega)]
    simp

theorem readBits_eq {r : BitReader} (h : r.WF) (n : Nat) :
    r.readBits n =
      if r.rest.length < n then none
      else some (bitsNat (r.rest.take n) % 2 ^ 64, r.adv n) := by
  unfold readBits
  rw [readBitsRaw_eq h]
  by_cases hh : r.rest.length < n <;> simp [hh]

theorem readBitRaw_eq {r : BitReader} (h : r.WF) :
    r.readBitRaw = match r.rest with
      | [] => .eof
      | b :: _ => .ok b (r.adv 1) := by
  unfold readBitRaw
  cases hr : r.rest with
  | nil =>
    have hl := rest_length r
    rw [hr] at hl
    have := h.1
    simp [pos] at hl
    rw [if_pos (by omega)]
  | cons b t =>
    have hl := rest_length r
    rw [hr] at hl
    have := h.1
    simp [pos] at hl
    rw [if_neg (by omega), readBitUnchecked_spec h hr]

theorem readBit_eq {r : BitReader} (h : r.WF) :
    r.readBit = match r.rest with
      | [] => none
      | b :: _ => some (b, r.adv 1) := by
  unfold readBit
  rw [readBitRaw_eq h]
  cases r.rest <;> rfl

theorem readByteRaw_eq {r : BitReader} (h : r.WF) :
    r.readByteRaw =
      if r.rest.length < 8 then .eof
      else .ok (BitVec.ofNat 8 (bitsNat (r.rest.take 8))) (r.adv 8) := by
  have h1 := h.1
  have h2 := h.2
  have hl := rest_length r
  simp only [pos] at *
  unfold readByteRaw
  by_cases hlt : r.rest.length < 8
  · rw [if_pos hlt]
    split
    · rfl
    · rw [if_pos (by omega)]
  · rw [if_neg hlt, if_neg (by omega), if_neg (by omega)]
    obtain ⟨b, hb, hbits⟩ := readByteUnchecked_spec h (by omega)
    rw [hb, ← hbits, byteBits, bitsNat_natBits]
    simp only
    congr 1
    apply BitVec.eq_of_toNat_eq
    have := b.isLt
    simp; omega

theorem readBitsRaw_ne_panic {r : BitReader} (h : r.WF) (n : Nat) : r.readBitsRaw n ≠ .panic := by
  rw [readBitsRaw_eq h]; split <;> simp

theorem readBitRaw_ne_panic {r : BitReader} (h : r.WF) : r.readBitRaw ≠ .panic := by
  rw [readBitRaw_eq h]; cases r.rest <;> simp

theorem readByteRaw_ne_panic {r : BitReader} (h : r.WF) : r.readByteRaw ≠ .panic := by
  rw [readByteRaw_eq h]; split <;> simp

/-- `r.At bs`: well-formed reader whose unread bits are `bs`. The form used by codec proofs. -/
def At (r : BitReader) (bs : List Bool) : Prop := r.WF ∧ r.rest = bs

theorem at_new (buf : List Byte) : (new buf).At (bytesBits buf) := ⟨wf_new _, rest_new _⟩

theorem At.adv {r : BitReader} {p t : List Bool} (h : r.At (p ++ t)) {n : Nat}
    (hn : p.length = n) : (r.adv n).At t := by
  subst hn
  refine ⟨wf_adv h.1 (by simp [h.2]), ?_⟩
  rw [rest_adv, h.2]; simp

theorem At.readBit {r : BitReader} {b : Bool} {t : List Bool} (h : r.At (b :: t)) :
    r.readBit = some (b, r.adv 1) ∧ (r.adv 1).At t := by
  refine ⟨?_, At.adv (p := [b]) h rfl⟩
  rw [readBit_eq h.1, h.2]

theorem At.readBits {r : BitReader} {v n : Nat} {t : List Bool} (h : r.At (natBits v n ++ t))
    (hn : n ≤ 64) : r.readBits n = some (v % 2 ^ n, r.adv n) ∧ (r.adv n).At t := by
  refine ⟨?_, At.adv h (by simp)⟩
  rw [readBits_eq h.1, h.2, if_neg (by simp), List.take_left' (by simp), bitsNat_natBits]
  congr 2
  apply Nat.mod_eq_of_lt
  calc v % 2 ^ n < 2 ^ n := Nat.mod_lt _ (Nat.two_pow_pos n)
    _ ≤ 2 ^ 64 := Nat.pow_le_pow_right (by omega) hn

theorem At.readBits_lt {r : BitReader} {v n : Nat} {t : List Bool} (h : r.At (natBits v n ++ t))
    (hn : n ≤ 64) (hv : v < 2 ^ n) : r.readBits n = some (v, r.adv n) ∧ (r.adv n).At t := by
  have := h.readBits hn
  rwa [Nat.mod_eq_of_lt hv] at this

theorem At.read2 {r : BitReader} {b c : Bool} {t : List Bool} (h : r.At (b :: c :: t)) :
    r.readBits 2 = some (2 * b.toNat + c.toNat, r.adv 2) ∧ (r.adv 2).At t := by
  have e : b :: c :: t = natBits (2 * b.toNat + c.toNat) 2 ++ t := by
    cases b <;> cases c <;> rfl
  rw [e] at h
  exact h.readBits_lt (by omega) (by cases b <;> cases c <;> decide)

theorem readBits_progress {r : BitReader} (h : r.WF) {n : Nat} {p : Nat × BitReader}
    (hb : r.readBits n = some p) : p.2.WF ∧ p.2.rest.length + n = r.rest.length := by
  rw [readBits_eq h] at hb
  split at hb
  · cases hb
  · cases hb
    refine ⟨wf_adv h (by omega), ?_⟩
    simp only [rest_adv, List.length_drop]
    omega

theorem readBit_progress {r : BitReader} (h : r.WF) {p : Bool × BitReader}
    (hb : r.readBit = some p) : p.2.WF ∧ p.2.rest.length + 1 = r.rest.length := by
  rw [readBit_eq h] at hb
  cases hr : r.rest with
  | nil => simp [hr] at hb
  | cons b t =>
    simp only [hr] at hb
    cases hb
    refine ⟨wf_adv h (by simp [hr]), ?_⟩
    simp [rest_adv, hr]

theorem At.readByte {r : BitReader} {v : Nat} {t : List Bool} (h : r.At (natBits v 8 ++ t))
    (hv : v < 256) : r.readByte = some (BitVec.ofNat 8 v, r.adv 8) ∧ (r.adv 8).At t := by
  refine ⟨?_, At.adv h (by simp)⟩
  unfold BitReader.readByte
  rw [readByteRaw_eq h.1, h.2, if_neg (by simp), List.take_left' (by simp), bitsNat_natBits,
    Nat.mod_eq_of_lt (by omega)]

theorem reset_eq (r : BitReader) : r.reset = new r.buf := rfl

theorem readBits_buf {r : BitReader} (h : r.WF) {n : Nat} {p : Nat × BitReader}
    (hb : r.readBits n = some p) : p.2.buf = r.buf := by
  rw [readBits_eq h] at hb
  split at hb
  · cases hb
  · cases hb; rfl

end BitReader
end Ebi
