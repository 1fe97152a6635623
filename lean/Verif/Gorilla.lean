import Verif.Xor

/-!
# Gorilla  (`compressor/gorilla.rs`, `decoder/chunk_reader/gorilla.rs`)
-/

namespace Ebi
namespace Gorilla

/-- `struct GorillaFloatEncoderState`, compressor/gorilla.rs:74-83. -/
structure Enc where
  valueBits : B64
  leadingZeroes : Nat
  trailingZeroes : Nat
  first : Bool
deriving DecidableEq, Repr

/-- `GorillaFloatEncoderState::new`, compressor/gorilla.rs:85-93. -/
def Enc.new : Enc := ⟨0#64, 64, 64, true⟩

/-- Leading zeros clamped to what 5 bits can hold, compressor/gorilla.rs:144-148. -/
def clampLz (x : Nat) : Nat := if 32 ≤ lz64 x then 31 else lz64 x

/-- `write_first` followed by `first = false`, compressor/gorilla.rs:118-126 and 198-201. -/
def writeFirst (s : Enc) (w : BitWriter) (v : B64) : Enc × BitWriter × Nat :=
  ({ s with valueBits := v, first := false }, w.writeBits v.toNat 64, 64)

/-- `write_next_value`, compressor/gorilla.rs:129-190. -/
def writeNext (s : Enc) (w : BitWriter) (v : B64) : Enc × BitWriter × Nat :=
  let xor := (v ^^^ s.valueBits).toNat
  let s := { s with valueBits := v }
  if xor = 0 then (s, w.writeBit false, 1)
  else
    let w := w.writeBit true
    let lead := clampLz xor
    let trail := tz64 xor
    if s.leadingZeroes ≤ lead ∧ s.trailingZeroes ≤ trail then
      let w := w.writeBit false
      let w := w.writeBits (xor >>> (s.trailingZeroes % 64)) (64 - s.leadingZeroes - s.trailingZeroes)
      (s, w, 1 + (1 + 64 - s.leadingZeroes - s.trailingZeroes))
    else
      let w := w.writeBit true
      let w := w.writeBits lead 5
      let sig := 64 - lead - trail
      let w := w.writeBits (sig - 1) 6
      let w := w.writeBits (xor >>> (trail % 64)) sig
      ({ s with leadingZeroes := lead, trailingZeroes := trail }, w, 1 + (1 + 5 + 6 + sig))

/-- `encode`, compressor/gorilla.rs:195-205. -/
def encode (s : Enc) (w : BitWriter) (v : B64) : Enc × BitWriter × Nat :=
  if s.first then writeFirst s w v else writeNext s w v

/-- `close`, compressor/gorilla.rs:27-30. -/
def close (s : Enc) (w : BitWriter) : Enc × BitWriter :=
  let (s, w, _) := encode s w nanBits
  (s, w.writeBit false)

/-- `simulate_encode`, compressor/gorilla.rs:208-257. -/
def simulateEncode (s : Enc) (v : B64) : Nat :=
  if s.first then 64
  else
    let xor := (v ^^^ s.valueBits).toNat
    if xor = 0 then 1
    else
      let lead := clampLz xor
      let trail := tz64 xor
      if s.leadingZeroes ≤ lead ∧ s.trailingZeroes ≤ trail then
        1 + (1 + 64 - s.leadingZeroes - s.trailingZeroes)
      else
        let sig := 64 - lead - trail
        1 + (1 + 5 + 6 + sig)

/-- `simulate_close`, compressor/gorilla.rs:32-34. -/
def simulateClose (s : Enc) : Nat := simulateEncode s nanBits + 1

/-- `struct GorillaDecoder`, decoder/chunk_reader/gorilla.rs:60-69 (`u8` fields as naturals). -/
structure Dec where
  valueBits : B64
  leadingZeroes : Nat
  trailingZeroes : Nat
  first : Bool
  done : Bool
deriving DecidableEq, Repr

/-- `GorillaDecoder::new`, decoder/chunk_reader/gorilla.rs:80-88. -/
def Dec.new : Dec := ⟨0#64, 0, 0, true, false⟩

/-- Outcome of reading one raw word. -/
inductive Word where
  | ok (d : Dec) (r : BitReader)
  | err
  | panic

/-- `read_first_value`, decoder/chunk_reader/gorilla.rs:90-98. -/
def readFirst (d : Dec) (r : BitReader) : Word :=
  match r.readBits 64 with
  | some (bits, r) => .ok { d with valueBits := BitVec.ofNat 64 bits } r
  | none => .err

/-- The tail of `read_next_value`, decoder/chunk_reader/gorilla.rs:125-132. -/
def readSig (d : Dec) (r : BitReader) : Word :=
  match r.readBits (64 - d.leadingZeroes - d.trailingZeroes) with
  | some (bits, r) =>
    .ok { d with valueBits := d.valueBits ^^^ (BitVec.ofNat 64 bits <<< d.trailingZeroes) } r
  | none => .err

/-- `read_next_value`, decoder/chunk_reader/gorilla.rs:100-133. The `u8` subtraction at line 122
panics (debug) when the announced window exceeds 64 bits. -/
def readNext (d : Dec) (r : BitReader) : Word :=
  match r.readBit with
  | none => .err
  | some (false, r) => .ok d r
  | some (true, r) =>
    match r.readBit with
    | none => .err
    | some (false, r) => readSig d r
    | some (true, r) =>
      match r.readBits 5 with
      | none => .err
      | some (lead, r) =>
        match r.readBits 6 with
        | none => .err
        | some (n, r) =>
          let sig := n + 1
          if 64 < lead + sig then .panic
          else readSig { d with leadingZeroes := lead, trailingZeroes := 64 - lead - sig } r

/-- `GorillaDecoder::next`, decoder/chunk_reader/gorilla.rs:137-157. -/
def next (d : Dec) (r : BitReader) : DRes Dec :=
  if d.done then .done d r
  else
    match (if d.first then readFirst { d with first := false } r else readNext d r) with
    | .err => .err
    | .panic => .panic
    | .ok d r =>
      if d.valueBits = nanBits then .done { d with done := true } r
      else .value d.valueBits d r

/-- The Gorilla instance of the XOR traits, compressor/gorilla.rs:22-39. -/
def codec : XorCodec where
  S := Enc
  D := Dec
  init := Enc.new
  compressFloat := encode
  close := close
  simulateClose := simulateClose
  dinit := Dec.new
  next := next

/-! ## Laws -/

/-- Invariant of the encoder window: either the initial sentinel or a window that fits. -/
def Inv (s : Enc) : Prop :=
  (s.leadingZeroes = 64 ∧ s.trailingZeroes = 64) ∨
  (s.leadingZeroes ≤ 31 ∧ s.leadingZeroes + s.trailingZeroes ≤ 63)

def emitNext (s : Enc) (v : B64) : List Bool :=
  let xor := (v ^^^ s.valueBits).toNat
  if xor = 0 then [false]
  else
    let lead := clampLz xor
    let trail := tz64 xor
    if s.leadingZeroes ≤ lead ∧ s.trailingZeroes ≤ trail then
      true :: false :: natBits (xor >>> (s.trailingZeroes % 64))
        (64 - s.leadingZeroes - s.trailingZeroes)
    else
      let sig := 64 - lead - trail
      true :: true :: (natBits lead 5 ++ (natBits (sig - 1) 6 ++ natBits (xor >>> (trail % 64)) sig))

def emit (s : Enc) (v : B64) : List Bool :=
  if s.first then natBits v.toNat 64 else emitNext s v

def nextS (s : Enc) (v : B64) : Enc :=
  if s.first then { s with valueBits := v, first := false }
  else
    let xor := (v ^^^ s.valueBits).toNat
    let s := { s with valueBits := v }
    if xor = 0 then s
    else if s.leadingZeroes ≤ clampLz xor ∧ s.trailingZeroes ≤ tz64 xor then s
    else { s with leadingZeroes := clampLz xor, trailingZeroes := tz64 xor }

structure Sim (s : Enc) (d : Dec) : Prop where
  inv : Inv s
  value : d.valueBits = s.valueBits
  first : d.first = s.first
  done : d.done = false
  window : s.leadingZeroes ≤ 31 → d.leadingZeroes = s.leadingZeroes ∧ d.trailingZeroes = s.trailingZeroes

theorem clampLz_le (x : Nat) : clampLz x ≤ 31 := by unfold clampLz; split <;> omega

theorem clampLz_le_lz (x : Nat) : clampLz x ≤ lz64 x := by unfold clampLz; split <;> omega

theorem encode_state (s : Enc) (w : BitWriter) (v : B64) : (encode s w v).1 = nextS s v := by
  unfold encode nextS writeFirst writeNext
  split
  · rfl
  · simp only
    split
    · rfl
    · split <;> rfl

theorem encode_rep {s : Enc} {w : BitWriter} {bs : List Bool} (v : B64) (h : w.Rep bs) :
    (encode s w v).2.1.Rep (bs ++ emit s v) := by
  unfold encode emit writeFirst writeNext emitNext
  split
  · exact BitWriter.rep_writeBits h _ _
  · simp only
    split
    · exact BitWriter.rep_writeBit h _
    · split
      · have := BitWriter.rep_writeBits (BitWriter.rep_writeBit (BitWriter.rep_writeBit h true) false)
          ((v ^^^ s.valueBits).toNat >>> (s.trailingZeroes % 64))
          (64 - s.leadingZeroes - s.trailingZeroes)
        simpa using this
      · have := BitWriter.rep_writeBits (BitWriter.rep_writeBits (BitWriter.rep_writeBits
          (BitWriter.rep_writeBit (BitWriter.rep_writeBit h true) true)
          (clampLz (v ^^^ s.valueBits).toNat) 5)
          (64 - clampLz (v ^^^ s.valueBits).toNat - tz64 (v ^^^ s.valueBits).toNat - 1) 6)
          ((v ^^^ s.valueBits).toNat >>> (tz64 (v ^^^ s.valueBits).toNat % 64))
          (64 - clampLz (v ^^^ s.valueBits).toNat - tz64 (v ^^^ s.valueBits).toNat)
        simpa using this

theorem inv_nextS {s : Enc} (h : Inv s) (v : B64) : Inv (nextS s v) := by
  unfold nextS
  split
  · exact h
  · simp only
    split
    · exact h
    · rename_i h0
      split
      · exact h
      · right
        have := lz_tz h0 (v ^^^ s.valueBits).isLt
        have := clampLz_le (v ^^^ s.valueBits).toNat
        have := clampLz_le_lz (v ^^^ s.valueBits).toNat
        simp only
        omega

/-- XORing back a window that holds the whole difference restores the value. -/
theorem restore (v p : B64) (t : Nat) (ht : t ≤ tz64 (v ^^^ p).toNat) (ht64 : t < 64) :
    p ^^^ (BitVec.ofNat 64 ((v ^^^ p).toNat >>> (t % 64)) <<< t) = v := by
  rw [Nat.mod_eq_of_lt ht64]
  have : BitVec.ofNat 64 ((v ^^^ p).toNat >>> t) <<< t = v ^^^ p := by
    apply BitVec.eq_of_toNat_eq
    rw [BitVec.toNat_shiftLeft, BitVec.toNat_ofNat]
    have hlt : (v ^^^ p).toNat >>> t < 2 ^ 64 := by
      rw [Nat.shiftRight_eq_div_pow]
      exact Nat.lt_of_le_of_lt (Nat.div_le_self _ _) (v ^^^ p).isLt
    rw [Nat.mod_eq_of_lt hlt, shift_back ht, Nat.mod_eq_of_lt (v ^^^ p).isLt]
  rw [this]; exact xor_cancel p v

/-- Reading back what `encode` emitted, before the end-marker test. -/
theorem read_emit {s : Enc} {d : Dec} {r : BitReader} {t : List Bool} (v : B64) (h : Sim s d)
    (hr : r.At (emit s v ++ t)) :
    ∃ d' r', (if d.first then readFirst { d with first := false } r else readNext d r) = .ok d' r' ∧
      r'.At t ∧ Sim (nextS s v) d' ∧ d'.valueBits = v := by
  have hinv' := inv_nextS h.inv v
  rw [h.first]
  by_cases hf : s.first = true
  · simp only [hf, if_true]
    simp only [emit, hf, if_true] at hr
    have := hr.readBits_lt (by omega) v.isLt
    refine ⟨{ d with first := false, valueBits := v }, r.adv 64, ?_, this.2, ?_, rfl⟩
    · simp [readFirst, this.1]
    · have hs : nextS s v = { s with valueBits := v, first := false } := by simp [nextS, hf]
      rw [hs] at hinv' ⊢
      exact ⟨hinv', rfl, rfl, h.done, h.window⟩
  · simp only [hf, Bool.false_eq_true, if_false]
    simp only [emit, hf, Bool.false_eq_true, if_false, emitNext] at hr
    by_cases h0 : (v ^^^ s.valueBits).toNat = 0
    · rw [if_pos h0] at hr
      have hb := BitReader.At.readBit hr
      have hv := xor_eq_zero.1 h0
      refine ⟨d, r.adv 1, ?_, hb.2, ?_, by rw [h.value, hv]⟩
      · simp [readNext, hb.1]
      · have hs : nextS s v = { s with valueBits := v } := by
          unfold nextS; simp only [hf, Bool.false_eq_true, if_false, h0, if_true]
        rw [hs] at hinv' ⊢
        exact ⟨hinv', by rw [h.value, hv], h.first, h.done, h.window⟩
    · rw [if_neg h0] at hr
      have hx := (v ^^^ s.valueBits).isLt
      by_cases hw : s.leadingZeroes ≤ clampLz (v ^^^ s.valueBits).toNat ∧
          s.trailingZeroes ≤ tz64 (v ^^^ s.valueBits).toNat
      · rw [if_pos hw] at hr
        have hl31 : s.leadingZeroes ≤ 31 := Nat.le_trans hw.1 (clampLz_le _)
        have hinv : s.leadingZeroes + s.trailingZeroes ≤ 63 := by
          rcases h.inv with h | h <;> omega
        have hwin := h.window hl31
        have hb1 := BitReader.At.readBit hr
        have hb2 := BitReader.At.readBit hb1.2
        have hlt : (v ^^^ s.valueBits).toNat >>> (s.trailingZeroes % 64)
            < 2 ^ (64 - s.leadingZeroes - s.trailingZeroes) := by
          rw [Nat.mod_eq_of_lt (by omega)]
          exact shiftRight_lt (lt_of_le_lz64 hx (Nat.le_trans hw.1 (clampLz_le_lz _))) (by omega)
        have hb3 := hb2.2.readBits_lt (by omega) hlt
        refine ⟨{ d with valueBits := v }, _, ?_, hb3.2, ?_, rfl⟩
        · simp only [readNext, hb1.1, hb2.1, readSig, hwin.1, hwin.2, hb3.1, h.value]
          rw [restore v s.valueBits s.trailingZeroes hw.2 (by omega)]
        · have hs : nextS s v = { s with valueBits := v } := by
            unfold nextS; simp only [hf, Bool.false_eq_true, if_false, h0, if_pos hw]
          rw [hs] at hinv' ⊢
          exact ⟨hinv', rfl, h.first, h.done, h.window⟩
      · rw [if_neg hw] at hr
        simp only [List.cons_append, List.append_assoc] at hr
        have hcl := clampLz_le (v ^^^ s.valueBits).toNat
        have hclz := clampLz_le_lz (v ^^^ s.valueBits).toNat
        have hlt63 := lz_tz h0 hx
        have hb1 := BitReader.At.readBit hr
        have hb2 := BitReader.At.readBit hb1.2
        have hb3 := hb2.2.readBits_lt (by omega) (by omega)
        have hb4 := hb3.2.readBits_lt (by omega) (by omega)
        have hlt : (v ^^^ s.valueBits).toNat >>> (tz64 (v ^^^ s.valueBits).toNat % 64)
            < 2 ^ (64 - clampLz (v ^^^ s.valueBits).toNat - tz64 (v ^^^ s.valueBits).toNat) := by
          rw [Nat.mod_eq_of_lt (by omega)]
          exact shiftRight_lt (lt_of_le_lz64 hx hclz) (by omega)
        have hb5 := hb4.2.readBits_lt (by omega) hlt
        have hs : nextS s v = { s with valueBits := v, leadingZeroes := clampLz (v ^^^ s.valueBits).toNat, trailingZeroes := tz64 (v ^^^ s.valueBits).toNat } := by
            unfold nextS; simp only [hf, Bool.false_eq_true, if_false, h0, if_neg hw]
        refine ⟨{ d with valueBits := v, leadingZeroes := clampLz (v ^^^ s.valueBits).toNat, trailingZeroes := tz64 (v ^^^ s.valueBits).toNat }, _, ?_, hb5.2, ?_, rfl⟩
        · simp only [readNext, hb1.1, hb2.1, hb3.1, hb4.1]
          rw [if_neg (by omega)]
          simp only [readSig]
          have e1 : 64 - clampLz (v ^^^ s.valueBits).toNat - (64 - clampLz (v ^^^ s.valueBits).toNat
              - tz64 (v ^^^ s.valueBits).toNat - 1 + 1) = tz64 (v ^^^ s.valueBits).toNat := by omega
          rw [e1, hb5.1, h.value]
          simp only
          rw [restore v s.valueBits _ (Nat.le_refl _) (by omega)]
        · rw [hs] at hinv' ⊢
          exact ⟨hinv', rfl, h.first, h.done, fun _ => ⟨rfl, rfl⟩⟩

theorem next_value {s : Enc} {d : Dec} {r : BitReader} {t : List Bool} (v : B64) (hv : v ≠ nanBits)
    (h : Sim s d) (hr : r.At (emit s v ++ t)) :
    ∃ d' r', next d r = .value v d' r' ∧ r'.At t ∧ Sim (nextS s v) d' := by
  obtain ⟨d', r', h1, h2, h3, h4⟩ := read_emit v h hr
  refine ⟨d', r', ?_, h2, h3⟩
  unfold next
  rw [h1, if_neg (by simp [h.done])]
  simp [h4, hv]

theorem next_nan {s : Enc} {d : Dec} {r : BitReader} {t : List Bool}
    (h : Sim s d) (hr : r.At (emit s nanBits ++ t)) :
    ∃ d' r', next d r = .done d' r' ∧ r'.At t := by
  obtain ⟨d', r', h1, h2, h3, h4⟩ := read_emit nanBits h hr
  refine ⟨{ d' with done := true }, r', ?_, h2⟩
  unfold next
  rw [h1, if_neg (by simp [h.done])]
  simp [h4]

/-- In every state satisfying the invariant, the count returned by `encode`, the simulated count and
the bits emitted agree. -/
theorem simulate_eq {s : Enc} (h : Inv s) (w : BitWriter) (v : B64) :
    simulateEncode s v = (emit s v).length ∧ (encode s w v).2.2 = (emit s v).length := by
  unfold simulateEncode encode emit writeFirst writeNext emitNext
  split
  · simp
  · simp only
    split
    · simp
    · rename_i h0
      split
      · rename_i hw
        have := clampLz_le (v ^^^ s.valueBits).toNat
        have : s.leadingZeroes + s.trailingZeroes ≤ 63 := by rcases h with h | h <;> omega
        simp; omega
      · have := lz_tz h0 (v ^^^ s.valueBits).isLt
        have := clampLz_le_lz (v ^^^ s.valueBits).toNat
        simp; omega

def encLaws : codec.EncLaws where
  emit := emit
  closeBits s := emit s nanBits ++ [false]
  nextS := nextS
  Inv := Inv
  inv_init := Or.inl ⟨rfl, rfl⟩
  inv_next v h := inv_nextS h v
  compress_state := encode_state
  compress_rep v _ h := encode_rep v h
  close_rep {s w bs} _ h := by
    have := BitWriter.rep_writeBit (encode_rep (s := s) nanBits h) false
    rw [List.append_assoc] at this
    exact this
  simulateClose_eq {s} h := by
    have := (simulate_eq h BitWriter.new nanBits).1
    simp only [codec, simulateClose, this, List.length_append, List.length_singleton]
  emit_pos s v := by
    unfold emit emitNext
    split
    · simp
    · simp only
      split
      · simp
      · split <;> simp

def laws : codec.Laws where
  toEncLaws := encLaws
  Sim := Sim
  Ok v := v ≠ nanBits
  sim_inv h := h.inv
  sim_init := ⟨Or.inl ⟨rfl, rfl⟩, rfl, rfl, rfl, fun h => by simp [codec, Enc.new] at h⟩
  next_value v hv h hr := next_value v hv h hr
  next_nan h hr := (next_nan h hr).imp fun _ h => h.imp fun _ h => h.1
  endBits s := emit s nanBits
  closeBits_eq _ := rfl
  next_close h hr := next_nan h hr

theorem readSig_progress {d : Dec} {r : BitReader} {d' r'} (hr : r.WF)
    (h : readSig d r = .ok d' r') : r'.WF ∧ r'.rest.length ≤ r.rest.length := by
  unfold readSig at h
  cases hb : r.readBits (64 - d.leadingZeroes - d.trailingZeroes) with
  | none => simp [hb] at h
  | some p =>
    simp only [hb] at h
    have := BitReader.readBits_progress hr hb
    cases h
    exact ⟨this.1, by omega⟩

theorem progress : codec.Progress := by
  intro d r v d' r' hr h
  change next d r = _ at h
  unfold next at h
  split at h
  · cases h
  · split at h
    · cases h
    · cases h
    · rename_i d1 r1 h1
      split at h
      · cases h
      · cases h
        split at h1
        · unfold readFirst at h1
          cases hb : r.readBits 64 with
          | none => simp [hb] at h1
          | some p =>
            simp only [hb] at h1
            have := BitReader.readBits_progress hr hb
            cases h1
            exact ⟨this.1, by omega⟩
        · unfold readNext at h1
          cases hb : r.readBit with
          | none => simp [hb] at h1
          | some p =>
            obtain ⟨b, r2⟩ := p
            have p1 := BitReader.readBit_progress hr hb
            simp only at p1
            simp only [hb] at h1
            cases b with
            | false => cases h1; exact ⟨p1.1, by omega⟩
            | true =>
              simp only at h1
              cases hb2 : r2.readBit with
              | none => simp [hb2] at h1
              | some p =>
                obtain ⟨b, r3⟩ := p
                have p2 := BitReader.readBit_progress p1.1 hb2
                simp only at p2
                simp only [hb2] at h1
                cases b with
                | false =>
                  have := readSig_progress p2.1 h1
                  exact ⟨this.1, by omega⟩
                | true =>
                  simp only at h1
                  cases hb3 : r3.readBits 5 with
                  | none => simp [hb3] at h1
                  | some p =>
                    have p3 := BitReader.readBits_progress p2.1 hb3
                    simp only [hb3] at h1
                    cases hb4 : p.2.readBits 6 with
                    | none => simp [hb4] at h1
                    | some q =>
                      have p4 := BitReader.readBits_progress p3.1 hb4
                      simp only [hb4] at h1
                      split at h1
                      · cases h1
                      · have := readSig_progress p4.1 h1
                        exact ⟨this.1, by omega⟩

end Gorilla
end Ebi
