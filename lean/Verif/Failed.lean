import Verif.ChunkReaderLemmas

/-!
# Chunk readers after a failed operation

`ChunkReader.lean` drops the state of a reader whose operation returned an error. Here it is kept: the
methods take `&mut self`, and a caller that holds the reader (`api::Decoder::chunk_reader`) may go on
using it. Each function repeats its counterpart in the other modules; the `_erase` theorems say that
nothing else differs.
-/

namespace Ebi

/-- Outcome of a method on `&mut self` returning `Result`: the state is kept also after an error. -/
inductive Attempt (S A : Type) where
  | ok (a : A) (s : S)
  | err (s : S)
  | panic
deriving DecidableEq

namespace Attempt

variable {S T A B : Type}

/-- Without the state after an error. -/
def forget : Attempt S A → Res (A × S)
  | ok a s => .ok (a, s)
  | err _ => .err
  | panic => .panic

def map (f : A → B) (g : S → T) : Attempt S A → Attempt T B
  | ok a s => ok (f a) (g s)
  | err s => err (g s)
  | panic => panic

/-- The state afterwards, whatever the result was; none after a panic. -/
def state : Attempt S A → Option S
  | ok _ s => some s
  | err s => some s
  | panic => none

theorem forget_map (f : A → B) (g : S → T) (x : Attempt S A) :
    (x.map f g).forget = x.forget.map fun p => (f p.1, g p.2) := by cases x <;> rfl

end Attempt

/-! ## Code on a bit reader -/

/-- A function on `&mut BitReader` returning `decoder::Result`. -/
def BitM (A : Type) := BitReader → Attempt BitReader A

namespace BitM

variable {A B : Type}

protected def pure (a : A) : BitM A := fun r => .ok a r

/-- The `?` operator. -/
protected def bind (m : BitM A) (f : A → BitM B) : BitM B := fun r =>
  match m r with
  | .ok a r => f a r
  | .err r => .err r
  | .panic => .panic

instance : Monad BitM where
  pure := BitM.pure
  bind := BitM.bind

def panic : BitM A := fun _ => .panic

/-- `read_bits(n).ok_or(UnexpectedEndOfChunk)?` (bit_read.rs:293-318): nothing is consumed if there
are not enough bits. -/
def bits (n : Nat) : BitM Nat := fun r =>
  match r.readBits n with
  | some (v, r) => .ok v r
  | none => .err r

/-- `read_bit().ok_or(UnexpectedEndOfChunk)?` (211-218). -/
def bit : BitM Bool := fun r =>
  match r.readBit with
  | some (v, r) => .ok v r
  | none => .err r

/-- `read_byte().ok_or(UnexpectedEndOfChunk)?` (251-261). -/
def byte : BitM Byte := fun r =>
  match r.readByte with
  | some (v, r) => .ok v r
  | none => .err r

@[simp] theorem bind_apply (m : BitM A) (f : A → BitM B) (r : BitReader) :
    (m >>= f) r = match m r with
      | .ok a r => f a r
      | .err r => .err r
      | .panic => .panic := rfl

@[simp] theorem pure_apply (a : A) (r : BitReader) : (Pure.pure a : BitM A) r = .ok a r := rfl

@[simp] theorem panic_apply (r : BitReader) : (panic : BitM A) r = .panic := rfl

end BitM

open BitM

/-- One `decompress_float` as a `BitM`: `Ok(Some(v))`, `Ok(None)`. -/
def toDRes {D : Type} : Attempt BitReader (Option B64 × D) → DRes D
  | .ok (some v, d) r => .value v d r
  | .ok (none, d) r => .done d r
  | .err _ => .err
  | .panic => .panic

/-! ## Gorilla -/

namespace Gorilla

/-- The tail of `read_next_value`, decoder/chunk_reader/gorilla.rs:125-132. -/
def readSigE (d : Dec) : BitM Dec := do
  let bits ← bits (64 - d.leadingZeroes - d.trailingZeroes)
  pure { d with valueBits := d.valueBits ^^^ (BitVec.ofNat 64 bits <<< d.trailingZeroes) }

/-- `read_next_value`, decoder/chunk_reader/gorilla.rs:100-133. -/
def readNextE (d : Dec) : BitM Dec := do
  match ← bit with
  | false => pure d
  | true =>
    match ← bit with
    | false => readSigE d
    | true => do
      let lead ← bits 5
      let n ← bits 6
      if 64 < lead + (n + 1) then panic
      else readSigE { d with leadingZeroes := lead, trailingZeroes := 64 - lead - (n + 1) }

/-- `read_first_value`, decoder/chunk_reader/gorilla.rs:90-98. -/
def readFirstE (d : Dec) : BitM Dec := do
  let bits ← bits 64
  pure { d with valueBits := BitVec.ofNat 64 bits }

/-- `GorillaDecoder::next`, decoder/chunk_reader/gorilla.rs:137-157. -/
def nextE (d : Dec) : BitM (Option B64 × Dec) :=
  if d.done then pure (none, d)
  else (if d.first then readFirstE { d with first := false } else readNextE d) >>= fun d =>
    if d.valueBits = nanBits then pure (none, { d with done := true })
    else pure (some d.valueBits, d)

end Gorilla

/-! ## Chimp -/

namespace Chimp

/-- Reading `n` bits and XORing them, shifted, into the stored value. -/
def xorBitsE (d : Dec) (n shift : Nat) : BitM Dec := do
  let bits ← bits n
  pure { d with storedVal := d.storedVal ^^^ (BitVec.ofNat 64 bits <<< shift) }

/-- Flag 1 of `next_value`, decoder/chunk_reader/chimp.rs:101-115. -/
def nextFlag1E (d : Dec) : BitM Dec := do
  let l ← bits 3
  let s ← bits 6
  let lead := leadingDecode l
  let sig := if s = 0 then 64 else s
  if 64 < sig + lead then panic
  else xorBitsE { d with storedLz := lead } (64 - lead - (64 - sig - lead)) (64 - sig - lead)

/-- `next_value`, decoder/chunk_reader/chimp.rs:81-117. -/
def nextValueE (d : Dec) : BitM Dec := do
  match ← bits 2 with
  | 3 => do
    let l ← bits 3
    xorBitsE { d with storedLz := leadingDecode l } (64 - leadingDecode l) 0
  | 2 => if 64 < d.storedLz then panic else xorBitsE d (64 - d.storedLz) 0
  | 1 => nextFlag1E d
  | _ => pure d

/-- First value, decoder/chunk_reader/chimp.rs:63-65. -/
def readFirstE (d : Dec) : BitM Dec := do
  let bits ← bits 64
  pure { d with first := false, storedVal := BitVec.ofNat 64 bits }

/-- `read_value`, decoder/chunk_reader/chimp.rs:58-79, 119-121. -/
def nextE (d : Dec) : BitM (Option B64 × Dec) :=
  if d.endOfStream then pure (none, d)
  else (if d.first then readFirstE d else nextValueE d) >>= fun d =>
    if d.storedVal = nanBits then pure (none, { d with endOfStream := true })
    else pure (some d.storedVal, d)

end Chimp

/-! ## Chimp128 -/

namespace Chimp128

/-- The ring advanced (chimp_n.rs:224-225, 238-239, 272-273, 281-282). -/
def pushed (d : Dec) : Option B64 × Dec :=
  (some d.storedVal, { d with current := (d.current + 1) % 128,
                              stored := upd d.stored ((d.current + 1) % 128) d.storedVal })

/-- The end-of-stream test (chimp_n.rs:221-226, 235-240, 269-274). -/
def finished (d : Dec) : Option B64 × Dec :=
  if d.storedVal = nanBits then (none, { d with endOfStream := true }) else pushed d

/-- Read `n` bits, XOR them shifted into the stored value and finish. -/
def xorBitsE (d : Dec) (n shift : Nat) : BitM (Option B64 × Dec) := do
  let bits ← bits n
  pure (finished { d with storedVal := d.storedVal ^^^ (BitVec.ofNat 64 bits <<< shift) })

/-- Flag 1, decoder/chunk_reader/chimp_n.rs:242-275. -/
def readFlag1E (d : Dec) : BitM (Option B64 × Dec) := do
  let temp ← bits 16
  let lead := leadingDecode ((temp >>> 6) &&& 7)
  let s := temp &&& 0x3f
  let sig := if s = 0 then 64 else s
  if 64 < sig + lead then panic
  else
    let d := { d with storedLz := lead, storedVal := d.stored ((temp >>> 9) &&& 0x7f) }
    xorBitsE d (64 - lead - (64 - sig - lead)) (64 - sig - lead)

/-- `next_value`, decoder/chunk_reader/chimp_n.rs:201-286. -/
def readNextE (d : Dec) : BitM (Option B64 × Dec) := do
  match ← bits 2 with
  | 3 => do
    let l ← bits 3
    xorBitsE { d with storedLz := leadingDecode l } (64 - leadingDecode l) 0
  | 2 => if 64 < d.storedLz then panic else xorBitsE d (64 - d.storedLz) 0
  | 1 => readFlag1E d
  | _ => do
    let i ← bits 7
    pure (pushed { d with storedVal := d.stored i })

/-- First value, decoder/chunk_reader/chimp_n.rs:183-194. -/
def readFirstE (d : Dec) : BitM (Option B64 × Dec) := do
  let bits ← bits 64
  let v := BitVec.ofNat 64 bits
  let d := { d with first := false, storedVal := v, stored := upd d.stored d.current v }
  pure (if v = nanBits then (none, { d with endOfStream := true }) else (some v, d))

/-- `read_value`, decoder/chunk_reader/chimp_n.rs:160-172. -/
def nextE (d : Dec) : BitM (Option B64 × Dec) :=
  if d.endOfStream then pure (none, d)
  else if d.first then readFirstE d else readNextE d

end Chimp128

/-! ## Elf -/

namespace ElfXor

/-- XOR with the stored value, compare with the end marker, store (elf.rs:172-178, 200-206, 218-224). -/
def finished (d : Dec) (x : B64) : Option B64 × Dec :=
  let v := x ^^^ d.storedVal
  if v = nanBits then (none, { d with endOfStream := true }) else (some v, { d with storedVal := v })

/-- `read_first`, decoder/chunk_reader/elf.rs:128-147. -/
def readFirstE (d : Dec) : BitM (Option B64 × Dec) := do
  let trail ← bits 7
  if trail < 64 then do
    let bits ← bits (63 - trail)
    let v := withOne bits trail
    let d := { d with first := false, storedVal := v }
    pure (if v = nanBits then (none, { d with endOfStream := true }) else (some v, d))
  else pure (some 0#64, { d with first := false, storedVal := 0#64 })

/-- Case `11`, decoder/chunk_reader/elf.rs:155-179. -/
def readCase3E (d : Dec) : BitM (Option B64 × Dec) := do
  let lc ← bits 9
  let lead := leadingDecode (lc >>> 6)
  let c := lc &&& 0x3f
  let center := if c = 0 then 64 else c
  if 64 < lead + center then panic
  else do
    let trail := 64 - lead - center
    let bits ← bits (center - 1)
    pure (finished { d with storedLz := lead, storedTz := trail } (withOne bits trail))

/-- Case `10`, decoder/chunk_reader/elf.rs:180-207. -/
def readCase2E (d : Dec) : BitM (Option B64 × Dec) := do
  let lc ← bits 7
  let lead := leadingDecode (lc >>> 4)
  let c := lc &&& 0xf
  let center := if c = 0 then 16 else c
  let trail := 64 - lead - center
  let d := { d with storedLz := lead, storedTz := trail }
  if center = 1 then pure (finished d (BitVec.ofNat 64 (1 <<< trail)))
  else do
    let bits ← bits (center - 1)
    pure (finished d (withOne bits trail))

/-- Case `00`, decoder/chunk_reader/elf.rs:211-225. -/
def readCase0E (d : Dec) : BitM (Option B64 × Dec) :=
  if 64 < d.storedLz + d.storedTz then panic
  else do
    let bits ← bits (64 - d.storedLz - d.storedTz)
    pure (finished d (BitVec.ofNat 64 (bits <<< d.storedTz)))

/-- `decompress_float_inner`, decoder/chunk_reader/elf.rs:149-229. -/
def readInnerE (d : Dec) : BitM (Option B64 × Dec) := do
  match ← bits 2 with
  | 3 => readCase3E d
  | 2 => readCase2E d
  | 1 => pure (some d.storedVal, d)
  | _ => readCase0E d

/-- `decompress_float`, decoder/chunk_reader/elf.rs:239-249. -/
def nextE (d : Dec) : BitM (Option B64 × Dec) :=
  if d.endOfStream then pure (none, d)
  else if d.first then readFirstE d else readInnerE d

end ElfXor

namespace Elf

variable (lg : B64 → B64) {D : Type}

/-- `recover_v_by_beta_star` (decoder/chunk_reader/elf.rs:65-81) after `last_beta_star` is known. -/
def readErasedE (next : D → BitM (Option B64 × D)) (last : Int) (x : D) : BitM (Option B64 × Int × D) := do
  let (v, x) ← next x
  pure (v.map (recover lg last), last, x)

/-- `next_value` (decoder/chunk_reader/elf.rs:43-63). -/
def nextE (next : D → BitM (Option B64 × D)) (last : Int) (x : D) : BitM (Option B64 × Int × D) := do
  match ← bit with
  | false => readErasedE lg next last x
  | true =>
    match ← bit with
    | false => do
      let (v, x) ← next x
      pure (v, last, x)
    | true => do
      let b ← bits 4
      readErasedE lg next (b : Int) x

end Elf

/-! ## The same with the state forgotten -/

theorem bits_none {r : BitReader} {n : Nat} (h : r.readBits n = none) : bits n r = .err r := by
  simp [bits, h]

theorem bits_some {r r' : BitReader} {n v : Nat} (h : r.readBits n = some (v, r')) : bits n r = .ok v r' := by
  simp [bits, h]

theorem bit_none {r : BitReader} (h : r.readBit = none) : bit r = .err r := by simp [bit, h]

theorem bit_some {r r' : BitReader} {v : Bool} (h : r.readBit = some (v, r')) : bit r = .ok v r' := by
  simp [bit, h]

namespace Gorilla

/-- `Word` with the reader at the error dropped. -/
def toWord : Attempt BitReader Dec → Word
  | .ok d r => .ok d r
  | .err _ => .err
  | .panic => .panic

theorem readSigE_erase (d : Dec) (r : BitReader) : toWord (readSigE d r) = readSig d r := by
  unfold readSig readSigE
  rw [bind_apply]
  cases h : r.readBits (64 - d.leadingZeroes - d.trailingZeroes) with
  | none => rw [bits_none h]; rfl
  | some p => obtain ⟨v, r⟩ := p; rw [bits_some h]; rfl

theorem readNextE_erase (d : Dec) (r : BitReader) : toWord (readNextE d r) = readNext d r := by
  unfold readNext readNextE
  rw [bind_apply]
  cases h : r.readBit with
  | none => rw [bit_none h]; rfl
  | some p =>
    obtain ⟨v, r⟩ := p
    rw [bit_some h]
    cases v with
    | false => rfl
    | true =>
      simp only [bind_apply]
      cases h : r.readBit with
      | none => rw [bit_none h]; rfl
      | some p =>
        obtain ⟨v, r⟩ := p
        rw [bit_some h]
        cases v with
        | false => exact readSigE_erase d r
        | true =>
          simp only [bind_apply]
          cases h : r.readBits 5 with
          | none => rw [bits_none h]; rfl
          | some p =>
            obtain ⟨v, r⟩ := p
            rw [bits_some h]
            simp only
            cases h : r.readBits 6 with
            | none => rw [bits_none h]; rfl
            | some p =>
              obtain ⟨n, r⟩ := p
              rw [bits_some h]
              simp only
              split
              · rfl
              · exact readSigE_erase _ r

theorem nextE_erase (d : Dec) (r : BitReader) : toDRes (nextE d r) = next d r := by
  unfold nextE next
  split
  · rfl
  · rw [bind_apply]
    have e : toWord ((if d.first then readFirstE { d with first := false } else readNextE d) r) =
        (if d.first then readFirst { d with first := false } r else readNext d r) := by
      split
      · unfold readFirstE readFirst
        rw [bind_apply]
        cases h : r.readBits 64 with
        | none => rw [bits_none h]; rfl
        | some p => obtain ⟨v, r⟩ := p; rw [bits_some h]; rfl
      · exact readNextE_erase d r
    rw [← e]
    cases ((if d.first then readFirstE { d with first := false } else readNextE d) r) with
    | ok d r =>
      simp only [toWord]
      split <;> rfl
    | err r => rfl
    | panic => rfl

end Gorilla

namespace Chimp

/-- `Word` with the reader at the error dropped. -/
def toWord : Attempt BitReader Dec → Word
  | .ok d r => .ok d r
  | .err _ => .err
  | .panic => .panic

theorem xorBitsE_erase (d : Dec) (r : BitReader) (n shift : Nat) :
    toWord (xorBitsE d n shift r) = xorBits d r n shift := by
  unfold xorBits xorBitsE
  rw [bind_apply]
  cases h : r.readBits n with
  | none => rw [bits_none h]; rfl
  | some p => obtain ⟨v, r⟩ := p; rw [bits_some h]; rfl

theorem nextFlag1E_erase (d : Dec) (r : BitReader) : toWord (nextFlag1E d r) = nextFlag1 d r := by
  unfold nextFlag1 nextFlag1E
  rw [bind_apply]
  cases h : r.readBits 3 with
  | none => rw [bits_none h]; rfl
  | some p =>
    obtain ⟨l, r⟩ := p
    rw [bits_some h]
    simp only [bind_apply]
    cases h : r.readBits 6 with
    | none => rw [bits_none h]; rfl
    | some p =>
      obtain ⟨s, r⟩ := p
      rw [bits_some h]
      simp only
      by_cases hc : 64 < (if s = 0 then 64 else s) + leadingDecode l
      · rw [if_pos hc, if_pos hc]; rfl
      · rw [if_neg hc, if_neg hc]; exact xorBitsE_erase _ r _ _

theorem nextValueE_erase (d : Dec) (r : BitReader) : toWord (nextValueE d r) = nextValue d r := by
  unfold nextValue nextValueE
  rw [bind_apply]
  cases h : r.readBits 2 with
  | none => rw [bits_none h]; rfl
  | some p =>
    obtain ⟨flag, r⟩ := p
    rw [bits_some h]
    rcases flag with _ | _ | _ | _ | n
    · rfl
    · exact nextFlag1E_erase d r
    · simp only [Nat.zero_add, Nat.reduceAdd]
      split
      · rfl
      · exact xorBitsE_erase _ r _ _
    · simp only [Nat.zero_add, Nat.reduceAdd, bind_apply]
      cases h : r.readBits 3 with
      | none => rw [bits_none h]; rfl
      | some p => obtain ⟨l, r⟩ := p; rw [bits_some h]; exact xorBitsE_erase _ r _ _
    · rfl

theorem nextE_erase (d : Dec) (r : BitReader) : toDRes (nextE d r) = next d r := by
  unfold nextE next
  split
  · rfl
  · rw [bind_apply]
    have e : toWord ((if d.first then readFirstE d else nextValueE d) r) =
        (if d.first then readFirst d r else nextValue d r) := by
      split
      · unfold readFirstE readFirst
        rw [bind_apply]
        cases h : r.readBits 64 with
        | none => rw [bits_none h]; rfl
        | some p => obtain ⟨v, r⟩ := p; rw [bits_some h]; rfl
      · exact nextValueE_erase d r
    rw [← e]
    cases ((if d.first then readFirstE d else nextValueE d) r) with
    | ok d r =>
      simp only [toWord]
      split <;> rfl
    | err r => rfl
    | panic => rfl

end Chimp

namespace Chimp128

theorem finished_erase (d : Dec) (r : BitReader) : toDRes (.ok (finished d) r) = finish d r := by
  unfold finished finish
  split <;> rfl

theorem xorBitsE_erase (d : Dec) (r : BitReader) (n shift : Nat) :
    toDRes (xorBitsE d n shift r) = xorBits d r n shift := by
  unfold xorBits xorBitsE
  rw [bind_apply]
  cases h : r.readBits n with
  | none => rw [bits_none h]; rfl
  | some p => obtain ⟨v, r⟩ := p; rw [bits_some h]; exact finished_erase _ r

theorem readFlag1E_erase (d : Dec) (r : BitReader) : toDRes (readFlag1E d r) = readFlag1 d r := by
  unfold readFlag1 readFlag1E
  rw [bind_apply]
  cases h : r.readBits 16 with
  | none => rw [bits_none h]; rfl
  | some p =>
    obtain ⟨t, r⟩ := p
    rw [bits_some h]
    simp only
    by_cases hc : 64 < (if t &&& 0x3f = 0 then 64 else t &&& 0x3f) + leadingDecode ((t >>> 6) &&& 7)
    · rw [if_pos hc, if_pos hc]; rfl
    · rw [if_neg hc, if_neg hc]; exact xorBitsE_erase _ r _ _

theorem readNextE_erase (d : Dec) (r : BitReader) : toDRes (readNextE d r) = readNext d r := by
  unfold readNext readNextE
  rw [bind_apply]
  cases h : r.readBits 2 with
  | none => rw [bits_none h]; rfl
  | some p =>
    obtain ⟨flag, r⟩ := p
    rw [bits_some h]
    have h0 : ∀ r : BitReader, toDRes ((bits 7 >>= fun i => pure (pushed { d with storedVal := d.stored i })) r) =
        match r.readBits 7 with
        | none => .err
        | some (i, r) => pushValue { d with storedVal := d.stored i } r := by
      intro r
      rw [bind_apply]
      cases h : r.readBits 7 with
      | none => rw [bits_none h]; rfl
      | some p => obtain ⟨i, r⟩ := p; rw [bits_some h]; rfl
    rcases flag with _ | _ | _ | _ | n
    · exact h0 r
    · exact readFlag1E_erase d r
    · simp only [Nat.zero_add, Nat.reduceAdd]
      split
      · rfl
      · exact xorBitsE_erase _ r _ _
    · simp only [Nat.zero_add, Nat.reduceAdd, bind_apply]
      cases h : r.readBits 3 with
      | none => rw [bits_none h]; rfl
      | some p => obtain ⟨l, r⟩ := p; rw [bits_some h]; exact xorBitsE_erase _ r _ _
    · exact h0 r

theorem nextE_erase (d : Dec) (r : BitReader) : toDRes (nextE d r) = next d r := by
  unfold nextE next
  split
  · rfl
  · split
    · unfold readFirstE readFirst
      rw [bind_apply]
      cases h : r.readBits 64 with
      | none => rw [bits_none h]; rfl
      | some p =>
        obtain ⟨v, r⟩ := p
        rw [bits_some h]
        simp only [pure_apply]
        split <;> rfl
    · exact readNextE_erase d r

end Chimp128

namespace ElfXor

theorem finished_erase (d : Dec) (r : BitReader) (x : B64) : toDRes (.ok (finished d x) r) = finish d r x := by
  unfold finished finish
  simp only
  split <;> rfl

theorem readCase3E_erase (d : Dec) (r : BitReader) : toDRes (readCase3E d r) = readCase3 d r := by
  unfold readCase3 readCase3E
  rw [bind_apply]
  cases h : r.readBits 9 with
  | none => rw [bits_none h]; rfl
  | some p =>
    obtain ⟨t, r⟩ := p
    rw [bits_some h]
    simp only
    by_cases hc : 64 < leadingDecode (t >>> 6) + (if t &&& 0x3f = 0 then 64 else t &&& 0x3f)
    · rw [if_pos hc, if_pos hc]; rfl
    · rw [if_neg hc, if_neg hc, bind_apply]
      cases h : r.readBits ((if t &&& 0x3f = 0 then 64 else t &&& 0x3f) - 1) with
      | none => rw [bits_none h]; rfl
      | some p => obtain ⟨v, r⟩ := p; rw [bits_some h]; exact finished_erase _ r _

theorem readCase2E_erase (d : Dec) (r : BitReader) : toDRes (readCase2E d r) = readCase2 d r := by
  unfold readCase2 readCase2E
  rw [bind_apply]
  cases h : r.readBits 7 with
  | none => rw [bits_none h]; rfl
  | some p =>
    obtain ⟨t, r⟩ := p
    rw [bits_some h]
    simp only
    by_cases hc : (if t &&& 0xf = 0 then 16 else t &&& 0xf) = 1
    · rw [if_pos hc, if_pos hc]; exact finished_erase _ r _
    · rw [if_neg hc, if_neg hc, bind_apply]
      cases h : r.readBits ((if t &&& 0xf = 0 then 16 else t &&& 0xf) - 1) with
      | none => rw [bits_none h]; rfl
      | some p => obtain ⟨v, r⟩ := p; rw [bits_some h]; exact finished_erase _ r _

theorem readCase0E_erase (d : Dec) (r : BitReader) : toDRes (readCase0E d r) = readCase0 d r := by
  unfold readCase0 readCase0E
  split
  · rfl
  · rw [bind_apply]
    cases h : r.readBits (64 - d.storedLz - d.storedTz) with
    | none => rw [bits_none h]; rfl
    | some p => obtain ⟨v, r⟩ := p; rw [bits_some h]; exact finished_erase _ r _

theorem readFirstE_erase (d : Dec) (r : BitReader) : toDRes (readFirstE d r) = readFirst d r := by
  unfold readFirst readFirstE
  rw [bind_apply]
  cases h : r.readBits 7 with
  | none => rw [bits_none h]; rfl
  | some p =>
    obtain ⟨t, r⟩ := p
    rw [bits_some h]
    simp only
    split
    · rw [bind_apply]
      cases h : r.readBits (63 - t) with
      | none => rw [bits_none h]; rfl
      | some p =>
        obtain ⟨v, r⟩ := p
        rw [bits_some h]
        simp only [pure_apply]
        split <;> rfl
    · rfl

theorem nextE_erase (d : Dec) (r : BitReader) : toDRes (nextE d r) = next d r := by
  unfold nextE next
  split
  · rfl
  · split
    · exact readFirstE_erase d r
    · unfold readInnerE readInner
      rw [bind_apply]
      cases h : r.readBits 2 with
      | none => rw [bits_none h]; rfl
      | some p =>
        obtain ⟨flag, r⟩ := p
        rw [bits_some h]
        rcases flag with _ | _ | _ | _ | n
        · exact readCase0E_erase d r
        · rfl
        · exact readCase2E_erase d r
        · exact readCase3E_erase d r
        · exact readCase0E_erase d r

end ElfXor

/-! ## XOR readers -/

/-- A decoder with the reader kept after an error. -/
structure XorCodec.Keeps (C : XorCodec) where
  nextE : C.D → BitM (Option B64 × C.D)
  erase : ∀ d r, toDRes (nextE d r) = C.next d r

def Gorilla.keeps : Gorilla.codec.Keeps := ⟨Gorilla.nextE, Gorilla.nextE_erase⟩
def Chimp.keeps : Chimp.codec.Keeps := ⟨Chimp.nextE, Chimp.nextE_erase⟩
def Chimp128.keeps : Chimp128.codec.Keeps := ⟨Chimp128.nextE, Chimp128.nextE_erase⟩
def ElfXor.keeps : ElfXor.codec.Keeps := ⟨ElfXor.nextE, ElfXor.nextE_erase⟩

namespace Elf

variable (lg : B64 → B64) {C : XorCodec}

/-- `next_value` on the wrapper's state. -/
def nextEDec (K : C.Keeps) (d : Dec C) : BitM (Option B64 × Dec C) := do
  let (v, last, x) ← nextE lg K.nextE d.last d.xor
  pure (v, ⟨last, x⟩)

theorem nextEDec_erase (K : C.Keeps) (d : Dec C) (r : BitReader) :
    toDRes (nextEDec lg K d r) = next lg C d r := by
  have hE : ∀ last x r, toDRes (((fun p => (p.1, (⟨p.2.1, p.2.2⟩ : Dec C))) <$> readErasedE lg K.nextE last x) r) =
      readErased lg C last x r := by
    intro last x r
    unfold readErased
    rw [← K.erase]
    change toDRes (BitM.bind (BitM.bind _ _) _ r) = _
    unfold BitM.bind
    cases K.nextE x r with
    | ok p r => obtain ⟨v, x⟩ := p; cases v <;> rfl
    | err r => rfl
    | panic => rfl
  unfold next nextEDec nextE
  rw [bind_apply, bind_apply]
  cases h : r.readBit with
  | none => rw [bit_none h]; rfl
  | some p =>
    obtain ⟨v, r⟩ := p
    rw [bit_some h]
    cases v with
    | false => exact hE d.last d.xor r
    | true =>
      simp only [bind_apply]
      cases h : r.readBit with
      | none => rw [bit_none h]; rfl
      | some p =>
        obtain ⟨v, r⟩ := p
        rw [bit_some h]
        cases v with
        | false =>
          simp only [bind_apply]
          unfold readRaw
          rw [← K.erase]
          cases K.nextE d.xor r with
          | ok p r => obtain ⟨v, x⟩ := p; cases v <;> rfl
          | err r => rfl
          | panic => rfl
        | true =>
          simp only [bind_apply]
          cases h : r.readBits 4 with
          | none => rw [bits_none h]; rfl
          | some p => obtain ⟨b, r⟩ := p; rw [bits_some h]; exact hE _ d.xor r

def keeps (K : C.Keeps) : (codec lg C).Keeps := ⟨nextEDec lg K, nextEDec_erase lg K⟩

end Elf

namespace XorCodec

variable {C : XorCodec} (K : C.Keeps)

/-- Draining the iterator (general_xor.rs:124-133, chunk_reader.rs:358-360). -/
def Keeps.collect : Nat → C.D → BitM (List B64)
  | 0, _ => BitM.panic
  | f + 1, d => K.nextE d >>= fun p =>
    match p with
    | (some v, d) => collect f d >>= fun vs => pure (v :: vs)
    | (none, _) => pure []

/-- `decompress` (general_xor.rs:75-81, chunk_reader.rs:353-364). -/
def Keeps.decompress (r : Reader) : Attempt Reader (List B64) :=
  match r.decompressed with
  | some vs => .ok vs r
  | none =>
    match K.collect (8 * r.bits.buf.length + 1) C.dinit r.bits with
    | .ok vs b => .ok vs ⟨b, some vs⟩
    | .err b => .err ⟨b, none⟩
    | .panic => .panic

theorem Keeps.collect_erase (f : Nat) (d : C.D) (r : BitReader) :
    (K.collect f d r).forget = C.collectR f d r := by
  induction f generalizing d r with
  | zero => rfl
  | succ f ih =>
    rw [Keeps.collect, collectR, bind_apply, ← K.erase]
    cases K.nextE d r with
    | ok p r =>
      obtain ⟨v, d⟩ := p
      cases v with
      | none => rfl
      | some v =>
        simp only [bind_apply, toDRes]
        rw [← ih]
        cases K.collect f d r <;> rfl
    | err r => rfl
    | panic => rfl

theorem Keeps.decompress_erase (r : Reader) : (K.decompress r).forget = Reader.decompress C r := by
  unfold Keeps.decompress Reader.decompress
  cases r.decompressed with
  | some vs => rfl
  | none =>
    simp only
    rw [← K.collect_erase]
    cases K.collect (8 * r.bits.buf.length + 1) C.dinit r.bits <;> rfl

end XorCodec

/-! ## Uncompressed and run-length readers

`short bs` is what a cursor with `bs` left has left after a `read_exact` that asked for more. The
standard library does not promise anything; it has been `bs` and `[]` in different versions. -/

section

variable (short : List Byte → List Byte)

/-- `UncompressedReaderImpl::decompress` (uncompressed.rs:56-71). -/
def Uncompressed.Reader.attempt (r : Uncompressed.Reader) : Attempt Uncompressed.Reader (List B64) :=
  match r.values with
  | some vs => .ok vs r
  | none =>
    match takeExact (8 * r.numberOfRecords) r.rest with
    | none => .err { r with rest := short r.rest }
    | some (bs, rest) => .ok (toF64s bs) { r with values := some (toF64s bs), rest := rest }

/-- The loop of `RunLengthReaderImpl::decompress` (run_length.rs:76-86). -/
def RunLength.fieldsE : Nat → List Byte → Attempt (List Byte) (List B64)
  | 0, bs => .ok [] bs
  | n + 1, bs =>
    match takeExact 9 bs with
    | none => .err (short bs)
    | some (f, rest) =>
      match fieldsE n rest with
      | .ok vs rest => .ok (List.replicate (f.headD 0).toNat (f64Of (f.drop 1)) ++ vs) rest
      | .err rest => .err rest
      | .panic => .panic

/-- `RunLengthReaderImpl::decompress` (run_length.rs:68-91). -/
def RunLength.Reader.attempt (r : RunLength.Reader) : Attempt RunLength.Reader (List B64) :=
  match r.decompressed with
  | some vs => .ok vs r
  | none =>
    match fieldsE short r.numberOfFields r.rest with
    | .ok vs rest => .ok vs { r with rest := rest, decompressed := some vs }
    | .err rest => .err { r with rest := rest }
    | .panic => .panic

theorem Uncompressed.Reader.attempt_erase (r : Uncompressed.Reader) :
    (r.attempt short).forget = r.decompress := by
  unfold attempt decompress
  cases r.values with
  | some vs => rfl
  | none =>
    simp only
    cases takeExact (8 * r.numberOfRecords) r.rest <;> rfl

/-- An `Option` as a result. -/
def Res.ofOption {α : Type} : Option α → Res α
  | some a => .ok a
  | none => .err

theorem RunLength.fieldsE_erase (n : Nat) (bs : List Byte) :
    (fieldsE short n bs).forget = .ofOption (decodeFields n bs) := by
  induction n generalizing bs with
  | zero => rfl
  | succ n ih =>
    rw [fieldsE, decodeFields]
    cases h : takeExact 9 bs with
    | none => rfl
    | some p =>
      obtain ⟨f, rest⟩ := p
      have := ih rest
      simp only
      cases h1 : fieldsE short n rest <;> cases h2 : decodeFields n rest <;> rw [h1, h2] at this <;> cases this <;> rfl

theorem RunLength.Reader.attempt_erase (r : RunLength.Reader) : (r.attempt short).forget = r.decompress := by
  unfold attempt decompress
  cases r.decompressed with
  | some vs => rfl
  | none =>
    have := fieldsE_erase short r.numberOfFields r.rest
    simp only
    cases h1 : fieldsE short r.numberOfFields r.rest <;> cases h2 : decodeFields r.numberOfFields r.rest <;>
      rw [h1, h2] at this <;> cases this <;> rfl

end

/-! ## DeltaSprintz -/

namespace Sprintz

/-- The header (sprintz.rs:103-115, 276-285, 324-333, 362-371, 415-424, 459-468). -/
def headerE : BitM (BitVec 64 × Nat × Nat) := do
  let init ← bits 64
  let scale ← bits 32
  let nb ← byte
  pure (BitVec.ofNat 64 init, scale, nb.toNat)

/-- Reading one delta: `unzigzag(read_bits(nb)) + previous`. -/
def deltaE (nb : Nat) (prev : BitVec 64) : BitM (BitVec 64) := do
  let z ← bits nb
  pure (unzigzag (BitVec.ofNat 64 z) + prev)

/-- The iterator's `next` (sprintz.rs:484-503), drained. -/
def iterE (o : FloatOps) (scale nb : Nat) : Nat → BitVec 64 → BitM (List B64)
  | 0, _ => pure []
  | k + 1, prev =>
    if nb = 0 then iterE o scale nb k prev >>= fun vs => pure (dequantize o scale prev :: vs)
    else deltaE nb prev >>= fun q => iterE o scale nb k q >>= fun vs => pure (dequantize o scale q :: vs)

/-- The scan of `filter` (sprintz.rs:137-154). -/
def filterE (p : Predicate (BitVec 64)) (off nb : Nat) : Nat → Nat → BitVec 64 → Bitmap → BitM Bitmap
  | 0, _, _, bm => pure bm
  | k + 1, i, prev, bm => deltaE nb prev >>= fun q =>
    filterE p off nb k (i + 1) q
      (if p.eval i64Cmp q then Bitmap.insert ((off % 2 ^ 32 + i % 2 ^ 32) % 2 ^ 32) bm else bm)

/-- Loops of `sum_without_bitmask` and `min_max_without_bitmask` (sprintz.rs:336-348, 427-443). -/
def foldE {A : Type} (f : A → BitVec 64 → A) (nb : Nat) : Nat → BitVec 64 → A → BitM A
  | 0, _, acc => pure acc
  | k + 1, prev, acc => deltaE nb prev >>= fun q => foldE f nb k q (f acc q)

/-- Loops of `sum` and `min_max` (sprintz.rs:288-312, 374-403). -/
def scanE {A : Type} (f : A → BitVec 64 → A) (off nb : Nat) : Nat → Nat → BitVec 64 → A → Nat → List Nat → BitM A
  | 0, _, _, acc, _, _ => pure acc
  | k + 1, i, prev, acc, next, more => deltaE nb prev >>= fun q =>
    if (i % 2 ^ 32 + off % 2 ^ 32) % 2 ^ 32 ≠ next then scanE f off nb k (i + 1) q acc next more
    else
      match more with
      | n :: more => scanE f off nb k (i + 1) q (f acc q) n more
      | [] => pure (f acc q)

/-- Running a function on the reader's bit reader. -/
def Reader.run {A : Type} (r : Reader) (m : BitM A) : Attempt Reader A :=
  (m r.br).map id fun br => { r with br := br }

/-- `decompress` (sprintz.rs:64-70, chunk_reader.rs:353-364). -/
def Reader.decompressE (o : FloatOps) (r : Reader) : Attempt Reader (List B64) :=
  match r.decompressed with
  | some vs => .ok vs r
  | none =>
    match r.run (headerE >>= fun h => iterE o h.2.1 h.2.2 r.numberOfRecords h.1) with
    | .ok vs r => .ok vs { r with decompressed := some vs }
    | .err r => .err r
    | .panic => .panic

/-- `filter` (sprintz.rs:91-162). -/
def Reader.filterQ (o : FloatOps) (r : Reader) (p : Predicate B64) (bm : Option Bitmap) (off : Nat) :
    Attempt Reader Bitmap :=
  let r := { r with br := r.br.reset }
  match r.decompressed with
  | some vs => .ok (defaultFilter p bm [] off vs) r
  | none => r.run (headerE >>= fun h =>
      if r.numberOfRecords = 0 then pure []
      else filterE (p.map (quantize o h.2.1)) off h.2.2 r.numberOfRecords 0 h.1 [] >>= fun res =>
        pure (match bm with
          | some b => Bitmap.inter res b
          | none => res))

/-- `sum`, `min_max` and the forms without bitmask (sprintz.rs:267-446). -/
def Reader.aggregateE (o : FloatOps) (f : BitVec 64 → BitVec 64 → BitVec 64) (init : BitVec 64)
    (r : Reader) (bm : Option Bitmap) (off : Nat) : Attempt Reader B64 :=
  ({ r with br := r.br.reset } : Reader).run (headerE >>= fun h =>
    match bm with
    | none => foldE f h.2.2 r.numberOfRecords h.1 init >>= fun s => pure (dequantize o h.2.1 s)
    | some b =>
      match inChunk off r.numberOfRecords b with
      | [] => pure nanBits
      | n :: more => scanE f off h.2.2 r.numberOfRecords 0 h.1 init n more >>= fun s =>
          pure (dequantize o h.2.1 s))

/-- The frame of `sum`, `min`, `max` (sprintz.rs:176-264): cached values, empty bitmask, aggregation. -/
def Reader.numberE (o : FloatOps) (f : BitVec 64 → BitVec 64 → BitVec 64) (init : BitVec 64)
    (cached : List B64 → B64) (empty : B64) (r : Reader) (bm : Option Bitmap) (off : Nat) : Attempt Reader B64 :=
  match r.decompressed with
  | some vs => .ok (cached vs) r
  | none => if bm = some [] then .ok empty r else r.aggregateE o f init bm off

/-- `QueryExecutor for DeltaSprintzReader` (sprintz.rs:90-265). -/
def Reader.attempt (o : FloatOps) (r : Reader) (off : Nat) : ChunkQuery → Attempt Reader Answer
  | .materialize bm => (({ r with br := r.br.reset } : Reader).decompressE o).map
      (fun vs => .values (defaultMaterialize bm off vs)) id
  | .filter p bm => (r.filterQ o p bm off).map .bitmap id
  | .sum bm => (r.numberE o (· + ·) 0#64 (defaultSum o bm off) 0#64 bm off).map .number id
  | .min bm => (r.numberE o imin i64Max (defaultMax o bm off) nanBits bm off).map .number id
  | .max bm => (r.numberE o imax i64Min (defaultMax o bm off) nanBits bm off).map .number id
  | q => (r.decompressE o).map (fun vs => defaultAnswer o off vs q) id

end Sprintz

/-! ## BUFF -/

/-- `QueryExecutor for BUFFReader` (buff.rs:127-325): the only state that changes is the cache, which is
set as the last step of a successful `decompress` (85-100). -/
def Buff.Reader.attempt (o : FloatOps) (useSimd : Nat → Nat → Bool) (r : Buff.Reader) (off : Nat)
    (q : ChunkQuery) : Attempt Buff.Reader Answer :=
  match r.exec o useSimd off q with
  | .ok (a, r') => .ok a r'
  | .err => .err r
  | .panic => .panic

/-! ## An opened chunk reader -/

/-- A chunk reader and the file behind it. Most readers copy their chunk when they are made; those on an
external library hold the file and read when first asked. `size` is the size of the chunk, `after` what
the file holds after the bytes in `pending`. -/
structure Opened where
  reader : AnyReader
  size : Nat
  after : List Byte

/-- `GeneralChunkReader::new` on a file positioned at the chunk. -/
def Opened.new (id : SchemeId) (n : Nat) (chunk after : List Byte) : Res Opened :=
  (AnyReader.new id n chunk).map fun r => ⟨r, chunk.length, after⟩

section

variable (short : List Byte → List Byte)

/-- `decompress` of the library readers (zstd.rs:40-62, gzip.rs:42-70, snappy.rs:42-70,
ffi_alp.rs:43-66): the bytes are taken from the file before they are decoded, and the reader is marked as
decompressed after. -/
def External.attempt (decode : Nat → List Byte → Res (List B64)) (r : External.Reader) (size : Nat)
    (after : List Byte) : Attempt (External.Reader × List Byte) (List B64) :=
  match r.decompressed with
  | some vs => .ok vs (r, after)
  | none =>
    if r.pending.length < size then .err ({ r with pending := short r.pending }, after)
    else
      match decode r.numberOfRecords r.pending with
      | .ok vs => .ok vs ({ r with pending := after.take size, decompressed := some vs }, after.drop size)
      | .err => .err ({ r with pending := after.take size }, after.drop size)
      | .panic => .panic

/-- `decompress` of the enum (chunk_reader.rs:426-437), without DeltaSprintz and BUFF, see `attempt`. -/
def Opened.decompress (E : Env) (s : Opened) : Attempt Opened (List B64) :=
  match s.reader with
  | .uncompressed r => (r.attempt short).map id fun r => { s with reader := .uncompressed r }
  | .rle r => (r.attempt short).map id fun r => { s with reader := .rle r }
  | .gorilla r => (Gorilla.keeps.decompress r).map id fun r => { s with reader := .gorilla r }
  | .chimp r => (Chimp.keeps.decompress r).map id fun r => { s with reader := .chimp r }
  | .chimp128 r => (Chimp128.keeps.decompress r).map id fun r => { s with reader := .chimp128 r }
  | .elfOnChimp r =>
    ((Elf.keeps E.log10 Chimp.keeps).decompress r).map id fun r => { s with reader := .elfOnChimp r }
  | .elf r => ((Elf.keeps E.log10 ElfXor.keeps).decompress r).map id fun r => { s with reader := .elf r }
  | .zstd r => (External.attempt short (External.decodeZstd E.zstd) r s.size s.after).map id
      fun p => { s with reader := .zstd p.1, after := p.2 }
  | .gzip r => (External.attempt short (External.decodeExact E.gzip) r s.size s.after).map id
      fun p => { s with reader := .gzip p.1, after := p.2 }
  | .snappy r => (External.attempt short (External.decodeExact E.snappy) r s.size s.after).map id
      fun p => { s with reader := .snappy p.1, after := p.2 }
  | .ffiAlp r => (External.attempt short (External.decodeAlp E.alp) r s.size s.after).map id
      fun p => { s with reader := .ffiAlp p.1, after := p.2 }
  | .deltaSprintz r => (r.decompressE E.o).map id fun r => { s with reader := .deltaSprintz r }
  | .buff r =>
    match r.decompress E.o with
    | .ok (vs, r) => .ok vs { s with reader := .buff r }
    | .err => .err s
    | .panic => .panic

/-- The query methods of the enum (chunk_reader.rs:474-640). -/
def Opened.attempt (E : Env) (s : Opened) (off : Nat) (q : ChunkQuery) : Attempt Opened Answer :=
  match s.reader with
  | .deltaSprintz r => (r.attempt E.o off q).map id fun r => { s with reader := .deltaSprintz r }
  | .buff r => (r.attempt E.o E.useSimd off q).map id fun r => { s with reader := .buff r }
  | _ => (s.decompress short E).map (fun vs => defaultAnswer E.o off vs q) id

/-- A caller that asks one query after the other and goes on after errors; `none` after a panic. -/
def Opened.history (E : Env) (s : Opened) (off : Nat) : List ChunkQuery → Option Opened
  | [] => some s
  | q :: qs => (s.attempt short E off q).state.bind fun s => s.history E off qs

end

end Ebi
