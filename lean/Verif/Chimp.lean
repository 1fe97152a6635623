import Verif.Xor
import Verif.LeadTable

/-!
# Chimp  (`compressor/chimp.rs`, `decoder/chunk_reader/chimp.rs`)
-/

namespace Ebi
namespace Chimp

/-- `struct ChimpEncoder`, compressor/chimp.rs:20-26 (`u32`/`usize` as naturals). -/
structure Enc where
  storedLz : Nat
  storedVal : B64
  first : Bool
  size : Nat
deriving DecidableEq, Repr

/-- `ChimpEncoder::new`, compressor/chimp.rs:66-73. -/
def Enc.new : Enc := ⟨2 ^ 32 - 1, 0#64, true, 0⟩

/-- `write_first`, compressor/chimp.rs:86-91. -/
def writeFirst (s : Enc) (w : BitWriter) (v : B64) : Enc × BitWriter :=
  ({ s with first := false, storedVal := v, size := s.size + 64 }, w.writeBits v.toNat 64)

/-- `compress_value`, compressor/chimp.rs:99-146. -/
def compressValue (s : Enc) (w : BitWriter) (v : B64) : Enc × BitWriter :=
  let xor := (s.storedVal ^^^ v).toNat
  if xor = 0 then
    let w := (w.writeBit false).writeBit false
    ({ s with size := s.size + 2, storedLz := 65, storedVal := v }, w)
  else
    let lead := roundLz xor
    let trail := tz64 xor
    if 6 < trail then
      let sig := 64 - lead - trail
      let w := (w.writeBit false).writeBit true
      let w := w.writeBits (leadingRepr lead) 3
      let w := w.writeBits sig 6
      let w := w.writeBits (xor >>> trail) sig
      ({ s with size := s.size + (11 + sig), storedLz := 65, storedVal := v }, w)
    else if lead = s.storedLz then
      let w := (w.writeBit true).writeBit false
      let sig := 64 - lead
      let w := w.writeBits xor sig
      ({ s with size := s.size + (2 + sig), storedVal := v }, w)
    else
      let sig := 64 - lead
      let w := (w.writeBit true).writeBit true
      let w := w.writeBits (leadingRepr lead) 3
      let w := w.writeBits xor sig
      ({ s with size := s.size + (5 + sig), storedLz := lead, storedVal := v }, w)

/-- `add_value`, compressor/chimp.rs:76-83. -/
def addValue (s : Enc) (w : BitWriter) (v : B64) : Enc × BitWriter :=
  if s.first then writeFirst s w v else compressValue s w v

/-- `compress_float`, compressor/chimp.rs:29-34. -/
def compressFloat (s : Enc) (w : BitWriter) (v : B64) : Enc × BitWriter × Nat :=
  let (s', w') := addValue s w v
  (s', w', s'.size - s.size)

/-- `close`, compressor/chimp.rs:93-96. -/
def close (s : Enc) (w : BitWriter) : Enc × BitWriter :=
  let (s, w) := addValue s w nanBits
  (s, w.writeBit false)

/-- `simulate_add_value`, compressor/chimp.rs:185-211. -/
def simulateAddValue (s : Enc) (v : B64) : Nat :=
  let xor := (s.storedVal ^^^ v).toNat
  if s.first then s.size + 64
  else if xor = 0 then s.size + 2
  else
    let lead := roundLz xor
    let trail := tz64 xor
    if 6 < trail then
      let sig := 64 - lead - trail
      s.size + (11 + sig)
    else if lead = s.storedLz then
      let sig := 64 - lead
      s.size + (2 + sig)
    else
      let sig := 64 - lead
      s.size + (5 + sig)

/-- `simulate_close`, compressor/chimp.rs:44-48. -/
def simulateClose (s : Enc) : Nat := simulateAddValue s nanBits + 1 - s.size

/-- `struct ChimpDecoder`, decoder/chunk_reader/chimp.rs:12-19 (`stored_trailing_zeros` is only a
temporary there and is not kept in the model). -/
structure Dec where
  storedLz : Nat
  storedVal : B64
  first : Bool
  endOfStream : Bool
deriving DecidableEq, Repr

/-- `ChimpDecoder::new`, decoder/chunk_reader/chimp.rs:40-48. -/
def Dec.new : Dec := ⟨2 ^ 32 - 1, 0#64, true, false⟩

/-- Outcome of reading one raw word. -/
inductive Word where
  | ok (d : Dec) (r : BitReader)
  | err
  | panic

/-- Reading `n` bits and XORing them, shifted, into the stored value. -/
def xorBits (d : Dec) (r : BitReader) (n shift : Nat) : Word :=
  match r.readBits n with
  | none => .err
  | some (bits, r) => .ok { d with storedVal := d.storedVal ^^^ (BitVec.ofNat 64 bits <<< shift) } r

/-- Flag 1 of `next_value`, decoder/chunk_reader/chimp.rs:101-115. The `u32` subtraction at line 110
panics (debug) if the announced window does not fit. -/
def nextFlag1 (d : Dec) (r : BitReader) : Word :=
  match r.readBits 3 with
  | none => .err
  | some (l, r) =>
    let lead := leadingDecode l
    match r.readBits 6 with
    | none => .err
    | some (s, r) =>
      let sig := if s = 0 then 64 else s
      if 64 < sig + lead then .panic
      else
        let trail := 64 - sig - lead
        xorBits { d with storedLz := lead } r (64 - lead - trail) trail

/-- `next_value`, decoder/chunk_reader/chimp.rs:81-117, without the final end-of-stream test. The
`u32` subtraction at line 94 panics (debug) if no window has been announced yet. -/
def nextValue (d : Dec) (r : BitReader) : Word :=
  match r.readBits 2 with
  | none => .err
  | some (flag, r) =>
    match flag with
    | 3 =>
      match r.readBits 3 with
      | none => .err
      | some (l, r) =>
        let lead := leadingDecode l
        xorBits { d with storedLz := lead } r (64 - lead) 0
    | 2 => if 64 < d.storedLz then .panic else xorBits d r (64 - d.storedLz) 0
    | 1 => nextFlag1 d r
    | _ => .ok d r

/-- First value, decoder/chunk_reader/chimp.rs:63-65. -/
def readFirst (d : Dec) (r : BitReader) : Word :=
  match r.readBits 64 with
  | none => .err
  | some (bits, r) => .ok { d with first := false, storedVal := BitVec.ofNat 64 bits } r

/-- `read_value`, decoder/chunk_reader/chimp.rs:58-79 and the end-of-stream test 119-121. -/
def next (d : Dec) (r : BitReader) : DRes Dec :=
  if d.endOfStream then .done d r
  else
    match (if d.first then readFirst d r else nextValue d r) with
    | .err => .err
    | .panic => .panic
    | .ok d r =>
      if d.storedVal = nanBits then .done { d with endOfStream := true } r
      else .value d.storedVal d r

/-- The Chimp instance of the XOR traits, compressor/chimp.rs:28-49. -/
def codec : XorCodec where
  S := Enc
  D := Dec
  init := Enc.new
  compressFloat := compressFloat
  close := close
  simulateClose := simulateClose
  dinit := Dec.new
  next := next

/-! ## Laws -/

def emitNext (s : Enc) (v : B64) : List Bool :=
  let xor := (s.storedVal ^^^ v).toNat
  if xor = 0 then [false, false]
  else
    let lead := roundLz xor
    let trail := tz64 xor
    if 6 < trail then
      let sig := 64 - lead - trail
      false :: true :: (natBits (leadingRepr lead) 3 ++ (natBits sig 6 ++ natBits (xor >>> trail) sig))
    else if lead = s.storedLz then true :: false :: natBits xor (64 - lead)
    else true :: true :: (natBits (leadingRepr lead) 3 ++ natBits xor (64 - lead))

def emit (s : Enc) (v : B64) : List Bool :=
  if s.first then natBits v.toNat 64 else emitNext s v

def nextS (s : Enc) (v : B64) : Enc := (addValue s BitWriter.new v).1

theorem addValue_state (s : Enc) (w : BitWriter) (v : B64) : (addValue s w v).1 = nextS s v := by
  unfold nextS addValue writeFirst compressValue
  split
  · rfl
  · simp only
    split
    · rfl
    · split
      · rfl
      · split <;> rfl

theorem addValue_rep {s : Enc} {w : BitWriter} {bs : List Bool} (v : B64) (h : w.Rep bs) :
    (addValue s w v).2.Rep (bs ++ emit s v) := by
  unfold addValue emit writeFirst compressValue emitNext
  split
  · exact BitWriter.rep_writeBits h _ _
  · simp only
    split
    · simpa using BitWriter.rep_writeBit (BitWriter.rep_writeBit h false) false
    · split
      · simpa using BitWriter.rep_writeBits (BitWriter.rep_writeBits (BitWriter.rep_writeBits
          (BitWriter.rep_writeBit (BitWriter.rep_writeBit h false) true) _ _) _ _) _ _
      · split
        · simpa using BitWriter.rep_writeBits
            (BitWriter.rep_writeBit (BitWriter.rep_writeBit h true) false) _ _
        · simpa using BitWriter.rep_writeBits (BitWriter.rep_writeBits
            (BitWriter.rep_writeBit (BitWriter.rep_writeBit h true) true) _ _) _ _

/-- The encoder's own size counter grows by the number of bits emitted, and the simulation agrees. -/
theorem size_eq (s : Enc) (v : B64) :
    (nextS s v).size = s.size + (emit s v).length ∧ simulateAddValue s v = (nextS s v).size := by
  unfold nextS simulateAddValue addValue emit writeFirst compressValue emitNext
  by_cases hf : s.first = true
  · simp [hf]
  · simp only [hf, Bool.false_eq_true, if_false]
    split
    · simp
    · split
      · simp; omega
      · split
        · simp; omega
        · simp; omega

structure Sim (s : Enc) (d : Dec) : Prop where
  value : d.storedVal = s.storedVal
  first : d.first = s.first
  done : d.endOfStream = false
  window : s.storedLz ≤ 24 → d.storedLz = s.storedLz

theorem read_emit {s : Enc} {d : Dec} {r : BitReader} {t : List Bool} (v : B64) (h : Sim s d)
    (hr : r.At (emit s v ++ t)) :
    ∃ d' r', (if d.first then readFirst d r else nextValue d r) = .ok d' r' ∧
      r'.At t ∧ Sim (nextS s v) d' ∧ d'.storedVal = v := by
  rw [h.first]
  unfold emit at hr
  unfold nextS addValue
  by_cases hf : s.first = true
  · simp only [hf, if_true] at hr ⊢
    have := hr.readBits_lt (by omega) v.isLt
    refine ⟨{ d with first := false, storedVal := v }, r.adv 64, ?_, this.2, ?_, rfl⟩
    · simp [readFirst, this.1]
    · exact ⟨rfl, rfl, h.done, h.window⟩
  · simp only [hf, Bool.false_eq_true, if_false] at hr ⊢
    unfold emitNext at hr
    unfold compressValue
    have hd1 : d.first = false := by rw [h.first]; simpa using hf
    have hs1 : s.first = false := by simpa using hf
    by_cases h0 : (s.storedVal ^^^ v).toNat = 0
    · simp only [h0, if_true] at hr ⊢
      have hb := BitReader.At.read2 hr
      have hv := xor_eq_zero.1 h0
      refine ⟨d, r.adv 2, ?_, hb.2, ?_, by rw [h.value, hv]⟩
      · simp [nextValue, hb.1]
      · exact ⟨by rw [h.value, hv], h.first, h.done, by simp⟩
    · simp only [h0, if_false] at hr ⊢
      have hx := (s.storedVal ^^^ v).isLt
      have hl24 := roundLz_le h0
      have hllz := roundLz_le_lz h0
      have hlt63 := lz_tz h0 hx
      have hrep := repr_lt h0
      have hdec := decode_repr h0
      have hxc : s.storedVal ^^^ v = v ^^^ s.storedVal := BitVec.xor_comm _ _
      by_cases h6 : 6 < tz64 (s.storedVal ^^^ v).toNat
      · simp only [if_pos h6] at hr ⊢
        simp only [List.cons_append, List.append_assoc] at hr
        have hb1 := BitReader.At.read2 hr
        simp only [Bool.toNat_true, Bool.toNat_false, Nat.reduceMul, Nat.reduceAdd] at hb1
        have hb2 := hb1.2.readBits_lt (by omega) (by omega)
        have hb3 := hb2.2.readBits_lt (by omega) (by omega)
        have hlt := shiftRight_lt (t := tz64 (s.storedVal ^^^ v).toNat) (lt_of_roundLz h0 hx) (by omega)
        have hb4 := hb3.2.readBits_lt (by omega) hlt
        refine ⟨{ d with storedLz := roundLz (s.storedVal ^^^ v).toNat, storedVal := v }, _, ?_, hb4.2, ?_, rfl⟩
        · simp only [nextValue, hb1.1, nextFlag1, hb2.1, hb3.1, hdec]
          have e1 : 64 - roundLz (s.storedVal ^^^ v).toNat - tz64 (s.storedVal ^^^ v).toNat ≠ 0 := by omega
          have e2 : 64 - (64 - roundLz (s.storedVal ^^^ v).toNat - tz64 (s.storedVal ^^^ v).toNat)
            - roundLz (s.storedVal ^^^ v).toNat = tz64 (s.storedVal ^^^ v).toNat := by omega
          rw [if_neg e1, if_neg (by omega), e2]
          simp only [xorBits, hb4.1, h.value]
          rw [hxc, restore_shift v s.storedVal _ (Nat.le_refl _)]
        · exact ⟨rfl, h.first, h.done, by simp⟩
      · simp only [if_neg h6] at hr ⊢
        by_cases hl : roundLz (s.storedVal ^^^ v).toNat = s.storedLz
        · simp only [if_pos hl] at hr ⊢
          have hb1 := BitReader.At.read2 hr
          simp only [Bool.toNat_true, Bool.toNat_false, Nat.reduceMul, Nat.reduceAdd] at hb1
          have hb2 := hb1.2.readBits_lt (by omega) (lt_of_roundLz h0 hx)
          have hw : d.storedLz = roundLz (s.storedVal ^^^ v).toNat := by
            rw [h.window (by omega), hl]
          refine ⟨{ d with storedVal := v }, _, ?_, hb2.2, ?_, rfl⟩
          · simp only [nextValue, hb1.1, hw]
            rw [if_neg (by omega)]
            simp only [xorBits, hb2.1, h.value, BitVec.shiftLeft_zero]
            rw [hxc, restore_zero, ← hxc, ← hw]
          · exact ⟨rfl, h.first, h.done, h.window⟩
        · simp only [if_neg hl] at hr ⊢
          simp only [List.cons_append, List.append_assoc] at hr
          have hb1 := BitReader.At.read2 hr
          simp only [Bool.toNat_true, Nat.reduceMul, Nat.reduceAdd] at hb1
          have hb2 := hb1.2.readBits_lt (by omega) (by omega)
          have hb3 := hb2.2.readBits_lt (by omega) (lt_of_roundLz h0 hx)
          refine ⟨{ d with storedLz := roundLz (s.storedVal ^^^ v).toNat, storedVal := v }, _, ?_, hb3.2, ?_, rfl⟩
          · simp only [nextValue, hb1.1, hb2.1, hdec]
            simp only [xorBits, hb3.1, h.value, BitVec.shiftLeft_zero]
            rw [hxc, restore_zero]
          · exact ⟨rfl, h.first, h.done, fun _ => rfl⟩

theorem next_value {s : Enc} {d : Dec} {r : BitReader} {t : List Bool} (v : B64) (hv : v ≠ nanBits)
    (h : Sim s d) (hr : r.At (emit s v ++ t)) :
    ∃ d' r', next d r = .value v d' r' ∧ r'.At t ∧ Sim (nextS s v) d' := by
  obtain ⟨d', r', h1, h2, h3, h4⟩ := read_emit v h hr
  refine ⟨d', r', ?_, h2, h3⟩
  unfold next
  rw [h1, if_neg (by simp [h.done])]
  simp [h4, hv]

theorem next_nan {s : Enc} {d : Dec} {r : BitReader} {t : List Bool}
    (h : Sim s d) (hr : r.At (emit s nanBits ++ t)) :
    ∃ d' r', next d r = .done d' r' ∧ r'.At t := by
  obtain ⟨d', r', h1, h2, h3, h4⟩ := read_emit nanBits h hr
  refine ⟨{ d' with endOfStream := true }, r', ?_, h2⟩
  unfold next
  rw [h1, if_neg (by simp [h.done])]
  simp [h4]

theorem emit_pos (s : Enc) (v : B64) : 0 < (emit s v).length := by
  unfold emit emitNext
  split
  · simp
  · simp only
    split
    · simp
    · split
      · simp
      · split <;> simp

def encLaws : codec.EncLaws where
  emit := emit
  closeBits s := emit s nanBits ++ [false]
  nextS := nextS
  Inv _ := True
  inv_init := trivial
  inv_next _ _ := trivial
  compress_state := addValue_state
  compress_rep v _ h := addValue_rep v h
  close_rep {s w bs} _ h := by
    have := BitWriter.rep_writeBit (addValue_rep (s := s) nanBits h) false
    rw [List.append_assoc] at this
    exact this
  simulateClose_eq {s} _ := by
    have := size_eq s nanBits
    simp only [codec, simulateClose, List.length_append, List.length_singleton]
    omega
  emit_pos := emit_pos

def laws : codec.Laws where
  toEncLaws := encLaws
  Sim := Sim
  Ok v := v ≠ nanBits
  sim_inv _ := trivial
  sim_init := ⟨rfl, rfl, rfl, fun h => by simp [codec, Enc.new] at h⟩
  next_value v hv h hr := next_value v hv h hr
  next_nan h hr := (next_nan h hr).imp fun _ h => h.imp fun _ h => h.1
  endBits s := emit s nanBits
  closeBits_eq _ := rfl
  next_close h hr := next_nan h hr

theorem xorBits_progress {d : Dec} {r : BitReader} {n k : Nat} {d' r'} (hr : r.WF)
    (h : xorBits d r n k = .ok d' r') : r'.WF ∧ r'.rest.length ≤ r.rest.length := by
  unfold xorBits at h
  split at h
  · cases h
  · rename_i hb
    have := BitReader.readBits_progress hr hb
    cases h
    exact ⟨this.1, by simp only at this; omega⟩

theorem nextFlag1_progress {d : Dec} {r : BitReader} {d' r'} (hr : r.WF)
    (h : nextFlag1 d r = .ok d' r') : r'.WF ∧ r'.rest.length ≤ r.rest.length := by
  unfold nextFlag1 at h
  split at h
  · cases h
  · rename_i hb
    have p1 := BitReader.readBits_progress hr hb
    simp only at h p1
    split at h
    · cases h
    · rename_i hb2
      have p2 := BitReader.readBits_progress p1.1 hb2
      simp only at h p2
      generalize (if _ = 0 then 64 else _ : Nat) = sig at h
      split at h
      · cases h
      · have := xorBits_progress p2.1 h
        exact ⟨this.1, by omega⟩

theorem nextValue_progress {d : Dec} {r : BitReader} {d' r'} (hr : r.WF)
    (h : nextValue d r = .ok d' r') : r'.WF ∧ r'.rest.length < r.rest.length := by
  unfold nextValue at h
  split at h
  · cases h
  · rename_i hb
    have p1 := BitReader.readBits_progress hr hb
    simp only at p1
    split at h
    · split at h
      · cases h
      · rename_i hb2
        have p2 := BitReader.readBits_progress p1.1 hb2
        have := xorBits_progress p2.1 h
        exact ⟨this.1, by simp only at p2 this; omega⟩
    · split at h
      · cases h
      · have := xorBits_progress p1.1 h
        exact ⟨this.1, by omega⟩
    · have := nextFlag1_progress p1.1 h
      exact ⟨this.1, by omega⟩
    · cases h; exact ⟨p1.1, by omega⟩

theorem next_progress {d : Dec} {r : BitReader} {v d' r'} (hr : r.WF)
    (h : next d r = .value v d' r') : r'.WF ∧ r'.rest.length < r.rest.length := by
  unfold next at h
  split at h
  · cases h
  · split at h
    · cases h
    · cases h
    · rename_i d1 r1 h1
      split at h
      · cases h
      · cases h
        split at h1
        · unfold readFirst at h1
          split at h1
          · cases h1
          · rename_i hb
            have := BitReader.readBits_progress hr hb
            cases h1
            exact ⟨this.1, by simp only at this; omega⟩
        · exact nextValue_progress hr h1

theorem progress : codec.Progress := fun hr h => next_progress hr h

end Chimp
end Ebi
