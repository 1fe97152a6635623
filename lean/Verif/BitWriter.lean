import Verif.Bits

/-!
# `BufferedBitWriter`  (`ebi/src/io/bit_write.rs`)

The writer is modelled field for field. `u64`/`u32` arguments are natural numbers: the code only
shifts right and truncates, so no wrap-around can occur.
-/

namespace Ebi

/-- `struct BufferedBitWriter`, bit_write.rs:110-122. `bitPos = 8` means "a new byte is needed". -/
structure BitWriter where
  buf : List Byte
  bitPos : Nat
deriving DecidableEq, Repr

namespace BitWriter

/-- `BufferedBitWriter::new`, bit_write.rs:126-131. -/
def new : BitWriter := ⟨[], 8⟩

/-- `self.buffer[len - 1] |= x`: helper for the in-place update of the last byte used by
`write_bit` (bit_write.rs:247-248) and `write_byte` (bit_write.rs:282-283). On an empty buffer the
code would panic (`len - 1` underflows); here it is the identity, and `Rep` excludes the case. -/
def orLast : List Byte → Byte → List Byte
  | [], _ => []
  | [b], x => [b ||| x]
  | b :: l, x => b :: orLast l x

/-- `BitWrite::write_bit`, bit_write.rs:240-252. -/
def writeBit (w : BitWriter) (bit : Bool) : BitWriter :=
  let w : BitWriter := if w.bitPos = 8 then ⟨w.buf ++ [0#8], 0⟩ else w
  let buf := if bit then orLast w.buf (1#8 <<< (7 - w.bitPos)) else w.buf
  ⟨buf, w.bitPos + 1⟩

/-- `BitWrite::write_byte`, bit_write.rs:278-286. -/
def writeByte (w : BitWriter) (byte : Byte) : BitWriter :=
  if w.bitPos = 8 then { w with buf := w.buf ++ [byte] }
  else { w with buf := orLast w.buf (byte >>> w.bitPos) ++ [byte <<< (8 - w.bitPos)] }

/-- The trailing `for i in (0..remaining).rev()` loop of `write_bits`, bit_write.rs:57-62:
writes bits `n-1, …, 0` of `v`. -/
def writeBitsLoop (w : BitWriter) (v : Nat) : Nat → BitWriter
  | 0 => w
  | n + 1 => writeBitsLoop (w.writeBit ((v >>> n) &&& 1 != 0)) v n

/-- `BitWrite::write_bits`, bit_write.rs:46-64: whole bytes from the top, then single bits. -/
def writeBits (w : BitWriter) (bits : Nat) : Nat → BitWriter
  | num + 8 => writeBits (w.writeByte (BitVec.ofNat 8 (bits >>> num))) bits num
  | num => writeBitsLoop w (bits &&& ((1 <<< num) - 1)) num

/-- `BitWrite::set_cursor_at_in_bit`, bit_write.rs:319-337. The `unwrap` at line 332 cannot fail
(`bit_pos ≠ 8` implies `byte_pos ≥ 1` and the buffer has been truncated to `byte_pos` bytes). -/
def setCursorAtInBit (w : BitWriter) (bitCursor : Nat) : BitWriter :=
  let bytePos := (bitCursor + 7) / 8
  let bitPos := if bitCursor % 8 = 0 then 8 else bitCursor % 8
  if bytePos ≤ w.buf.length then
    let buf := w.buf.take bytePos
    if bitPos ≠ 8 then
      ⟨match buf.getLast? with
        | some b => buf.dropLast ++ [b &&& (0xFF#8 <<< (8 - bitPos))]
        | none => buf, bitPos⟩
    else ⟨buf, bitPos⟩
  else
    ⟨w.buf ++ List.replicate (bytePos - w.buf.length) 0#8, bitPos⟩

/-- `BitWrite::number_of_bits_written`, bit_write.rs:355-357. -/
def numberOfBitsWritten (w : BitWriter) : Nat := w.buf.length * 8 - (8 - w.bitPos)

/-- `BitWrite::as_slice`, bit_write.rs:382-384. -/
def asSlice (w : BitWriter) : List Byte := w.buf

/-- `BitWrite::reset`, bit_write.rs:404-407. -/
def reset (_w : BitWriter) : BitWriter := ⟨[], 8⟩

/-! ## Refinement to a list of bits -/

/-- `w.Rep bs`: the writer `w` represents exactly the written bits `bs`; the unused low bits of the
last byte are zero. -/
def Rep (w : BitWriter) (bs : List Bool) : Prop :=
  1 ≤ w.bitPos ∧ w.bitPos ≤ 8 ∧ bytesBits w.buf = bs ++ List.replicate (8 - w.bitPos) false

theorem rep_new : new.Rep [] := by simp [Rep, new]

theorem rep_reset (w : BitWriter) : w.reset.Rep [] := by simp [Rep, reset]

theorem orLast_concat (l : List Byte) (b x : Byte) : orLast (l ++ [b]) x = l ++ [b ||| x] := by
  induction l with
  | nil => rfl
  | cons a l ih =>
    cases l with
    | nil => simp [orLast]
    | cons c l => simpa [orLast] using ih

theorem zipWith_or_false (l : List Bool) (n : Nat) (h : l.length = n) :
    List.zipWith or l (List.replicate n false) = l := by
  subst h
  induction l with
  | nil => rfl
  | cons a l ih => simp [List.replicate_succ, ih]

theorem zipWith_false_or (l : List Bool) (n : Nat) (h : l.length = n) :
    List.zipWith or (List.replicate n false) l = l := by
  subst h
  induction l with
  | nil => rfl
  | cons a l ih => simp [List.replicate_succ, ih]

theorem zipWith_or_append (p q : List Bool) :
    List.zipWith or (p ++ List.replicate q.length false) (List.replicate p.length false ++ q)
      = p ++ q := by
  rw [List.zipWith_append (by simp), zipWith_or_false _ _ rfl, zipWith_false_or _ _ rfl]

theorem byteBits_or (a b : Byte) :
    byteBits (a ||| b) = List.zipWith or (byteBits a) (byteBits b) := by
  simp [byteBits, natBits_or]

theorem byteBits_shiftRight (b : Byte) (k : Nat) (hk : k ≤ 8) :
    byteBits (b >>> k) = List.replicate k false ++ (byteBits b).take (8 - k) := by
  apply List.ext_getElem
  · simp; omega
  · intro i h1 h2
    simp only [byteBits, BitVec.toNat_ushiftRight]
    rw [natBits_getElem, Nat.testBit_shiftRight]
    by_cases hi : i < k
    · rw [List.getElem_append_left (by simpa using hi)]
      simp only [List.getElem_replicate]
      apply Nat.testBit_lt_two_pow
      calc b.toNat < 2 ^ 8 := b.isLt
        _ ≤ _ := Nat.pow_le_pow_right (by omega) (by omega)
    · rw [List.getElem_append_right (by simpa using hi)]
      simp only [List.length_replicate, List.getElem_take]
      rw [natBits_getElem]
      congr 1
      simp at h1; omega

theorem byteBits_shiftLeft (b : Byte) (k : Nat) (hk : k ≤ 8) :
    byteBits (b <<< k) = (byteBits b).drop k ++ List.replicate k false := by
  apply List.ext_getElem
  · simp; omega
  · intro i h1 h2
    simp only [byteBits, BitVec.toNat_shiftLeft]
    simp at h1
    rw [natBits_getElem, Nat.testBit_mod_two_pow, Nat.testBit_shiftLeft]
    by_cases hi : i < 8 - k
    · rw [List.getElem_append_left (by simp; omega)]
      simp only [List.getElem_drop]
      rw [natBits_getElem]
      simp
      have e : 7 - i - k = 7 - (k + i) := by omega
      rw [e]
      simp [show 7 - i < 8 by omega, show k ≤ 7 - i by omega]
    · rw [List.getElem_append_right (by simp; omega)]
      simp; omega

theorem byteBits_one_shiftLeft (k : Nat) (hk : k < 8) :
    byteBits (1#8 <<< (7 - k)) =
      List.replicate k false ++ [true] ++ List.replicate (7 - k) false := by
  have : k = 0 ∨ k = 1 ∨ k = 2 ∨ k = 3 ∨ k = 4 ∨ k = 5 ∨ k = 6 ∨ k = 7 := by omega
  rcases this with h | h | h | h | h | h | h | h <;> subst h <;> decide

/-- A nonempty buffer whose last byte has zero low bits, split off. -/
theorem rep_split {w : BitWriter} {bs : List Bool} (h : w.Rep bs) (h8 : w.bitPos ≠ 8) :
    ∃ l b p, w.buf = l ++ [b] ∧ bs = bytesBits l ++ p ∧ p.length = w.bitPos ∧
      byteBits b = p ++ List.replicate (8 - w.bitPos) false := by
  obtain ⟨h1, h2, h3⟩ := h
  have hne : w.buf ≠ [] := by
    intro h0
    have := congrArg List.length h3
    simp [h0] at this; omega
  obtain ⟨l, b, hb⟩ : ∃ l b, w.buf = l ++ [b] :=
    ⟨w.buf.dropLast, w.buf.getLast hne, (List.dropLast_concat_getLast hne).symm⟩
  rw [hb] at h3
  simp at h3
  have hlen := congrArg List.length h3
  simp at hlen
  refine ⟨l, b, bs.drop (8 * l.length), hb, ?_, ?_, ?_⟩
  · have e : bytesBits l = bs.take (8 * l.length) := by
      have := congrArg (List.take (8 * l.length)) h3
      rw [List.take_append_of_le_length (by simp), List.take_append_of_le_length (by omega)] at this
      rw [← this, List.take_of_length_le (by simp)]
    rw [e, List.take_append_drop]
  · simp; omega
  · have := congrArg (List.drop (8 * l.length)) h3
    rw [List.drop_append_of_le_length (by simp), List.drop_append_of_le_length (by omega)] at this
    rw [← this, List.drop_of_length_le (by simp)]; simp

theorem rep_writeBit {w : BitWriter} {bs : List Bool} (h : w.Rep bs) (b : Bool) :
    (w.writeBit b).Rep (bs ++ [b]) := by
  by_cases h8 : w.bitPos = 8
  · obtain ⟨_, _, h3⟩ := h
    simp [h8] at h3
    unfold writeBit Rep
    simp only [h8, if_true]
    refine ⟨by omega, by omega, ?_⟩
    cases b
    · simp [h3]; decide
    · simp only [if_true, orLast_concat, bytesBits_append, h3]; simp; decide
  · obtain ⟨l, c, p, hb, hbs, hp, hc⟩ := rep_split h h8
    obtain ⟨h1, h2, h3⟩ := h
    unfold writeBit Rep
    simp only [h8, if_false]
    refine ⟨by omega, by omega, ?_⟩
    cases b
    · simp only [Bool.false_eq_true, if_false, h3]
      rw [show 8 - w.bitPos = (8 - (w.bitPos + 1)) + 1 by omega, List.replicate_succ]
      simp
    · simp only [if_true, hb, orLast_concat, bytesBits_append, hbs]
      simp only [bytesBits_cons, bytesBits_nil, List.append_nil, List.append_assoc]
      congr 1
      rw [byteBits_or, hc, byteBits_one_shiftLeft _ (by omega)]
      have := zipWith_or_append p ([true] ++ List.replicate (7 - w.bitPos) false)
      rw [show ([true] ++ List.replicate (7 - w.bitPos) false).length = 8 - w.bitPos by
        simp; omega, hp] at this
      rw [List.append_assoc, this]
      simp

theorem rep_writeByte {w : BitWriter} {bs : List Bool} (h : w.Rep bs) (b : Byte) :
    (w.writeByte b).Rep (bs ++ byteBits b) := by
  by_cases h8 : w.bitPos = 8
  · obtain ⟨_, _, h3⟩ := h
    simp [h8] at h3
    unfold writeByte Rep
    simp [h8, h3]
  · obtain ⟨l, c, p, hb, hbs, hp, hc⟩ := rep_split h h8
    obtain ⟨h1, h2, h3⟩ := h
    unfold writeByte Rep
    simp only [h8, if_false]
    refine ⟨by omega, by omega, ?_⟩
    simp only [hb, orLast_concat, bytesBits_append, hbs]
    simp only [bytesBits_cons, bytesBits_nil, List.append_nil, List.append_assoc]
    congr 1
    rw [byteBits_or, hc, byteBits_shiftRight _ _ h2, byteBits_shiftLeft _ _ (by omega)]
    have := zipWith_or_append p ((byteBits b).take (8 - w.bitPos))
    rw [show ((byteBits b).take (8 - w.bitPos)).length = 8 - w.bitPos by simp, hp] at this
    rw [this, List.append_assoc, ← List.append_assoc ((byteBits b).take _), List.take_append_drop]

theorem writeBitsLoop_bit (v n : Nat) : ((v >>> n) &&& 1 != 0) = v.testBit n := by
  simp [Nat.testBit, Nat.and_comm]

theorem rep_writeBitsLoop {w : BitWriter} {bs : List Bool} (h : w.Rep bs) (v n : Nat) :
    (w.writeBitsLoop v n).Rep (bs ++ natBits v n) := by
  induction n generalizing w bs with
  | zero => simpa [writeBitsLoop] using h
  | succ n ih =>
    rw [writeBitsLoop, writeBitsLoop_bit]
    have := ih (rep_writeBit h (v.testBit n))
    simpa [natBits_succ] using this

theorem rep_writeBits {w : BitWriter} {bs : List Bool} (h : w.Rep bs) (v n : Nat) :
    (w.writeBits v n).Rep (bs ++ natBits v n) := by
  fun_induction writeBits w v n generalizing bs with
  | case1 w n ih =>
    have := ih (rep_writeByte h (BitVec.ofNat 8 (v >>> n)))
    have e : natBits v (n + 8) = byteBits (BitVec.ofNat 8 (v >>> n)) ++ natBits v n := by
      rw [Nat.add_comm, natBits_append]
      simp only [byteBits, BitVec.toNat_ofNat, natBits_mod]
    rw [e, ← List.append_assoc]; exact this
  | case2 w n hn =>
    have := rep_writeBitsLoop h (v &&& ((1 <<< n) - 1)) n
    rw [Nat.shiftLeft_eq, Nat.one_mul, Nat.and_two_pow_sub_one_eq_mod] at this ⊢
    rwa [natBits_mod] at this

theorem rep_length {w : BitWriter} {bs : List Bool} (h : w.Rep bs) :
    w.numberOfBitsWritten = bs.length := by
  obtain ⟨h1, h2, h3⟩ := h
  have := congrArg List.length h3
  simp at this
  unfold numberOfBitsWritten
  omega

theorem rep_bytes_length {w : BitWriter} {bs : List Bool} (h : w.Rep bs) :
    w.buf.length = (bs.length + 7) / 8 := by
  obtain ⟨h1, h2, h3⟩ := h
  have := congrArg List.length h3
  simp at this
  omega

/-- The writer's whole state is determined by the bits written. -/
theorem rep_unique {w w' : BitWriter} {bs : List Bool} (h : w.Rep bs) (h' : w'.Rep bs) :
    w = w' := by
  have hl : w.bitPos = w'.bitPos := by
    have a := congrArg List.length h.2.2
    have b := congrArg List.length h'.2.2
    simp at a b
    have := h.1; have := h'.1; have := h.2.1; have := h'.2.1
    omega
  have : w.buf = w'.buf := by
    apply bytesBits_inj
    rw [h.2.2, h'.2.2, hl]
  cases w; cases w'; simp_all

/-- Different bit strings have different representations. -/
theorem rep_inj {w : BitWriter} {bs bs' : List Bool} (h : w.Rep bs) (h' : w.Rep bs') :
    bs = bs' := by
  have := h.2.2.symm.trans h'.2.2
  exact List.append_cancel_right this

theorem bytesBits_take (l : List Byte) (n : Nat) :
    bytesBits (l.take n) = (bytesBits l).take (8 * n) := by
  induction n generalizing l with
  | zero => simp
  | succ n ih =>
    cases l with
    | nil => simp
    | cons b l =>
      rw [List.take_succ_cons, bytesBits_cons, bytesBits_cons, ih,
        List.take_append (l₁ := byteBits b),
        List.take_of_length_le (l := byteBits b) (by simp; omega)]
      simp only [byteBits_length, show 8 * (n + 1) - 8 = 8 * n by omega]

theorem bytesBits_replicate_zero (n : Nat) :
    bytesBits (List.replicate n 0#8) = List.replicate (8 * n) false := by
  induction n with
  | zero => simp
  | succ n ih =>
    rw [List.replicate_succ, bytesBits_cons, ih, show 8 * (n + 1) = 8 + 8 * n by omega,
      ← List.replicate_append_replicate]
    congr 1

theorem byteBits_mask (b : Byte) (k : Nat) (hk : k ≤ 8) :
    byteBits (b &&& (0xFF#8 <<< (8 - k))) = (byteBits b).take k ++ List.replicate (8 - k) false := by
  have e : byteBits (b &&& (0xFF#8 <<< (8 - k)))
      = List.zipWith and (byteBits b) (byteBits (0xFF#8 <<< (8 - k))) := by
    simp only [byteBits, BitVec.toNat_and, natBits_and]
  rw [e, byteBits_shiftLeft _ _ (by omega)]
  apply List.ext_getElem
  · simp; omega
  · intro i h1 h2
    simp at h1
    simp only [List.getElem_zipWith]
    by_cases hi : i < k
    · rw [List.getElem_append_left (by simp; omega), List.getElem_append_left (by simp; omega)]
      simp only [List.getElem_drop, List.getElem_take]
      have h255 : (byteBits 255#8) = List.replicate 8 true := by decide
      have : (byteBits 255#8)[8 - k + i]'(by simp; omega) = true := by
        simp only [h255, List.getElem_replicate]
      rw [this, Bool.and_true]
    · rw [List.getElem_append_right (by simp; omega), List.getElem_append_right (by simp; omega)]
      simp

/-- Moving the cursor: the first `k` bits of what was written, zero extended if `k` is beyond. -/
theorem rep_setCursor {w : BitWriter} {bs : List Bool} (h : w.Rep bs) (k : Nat) :
    (w.setCursorAtInBit k).Rep (bs.take k ++ List.replicate (k - bs.length) false) := by
  obtain ⟨h1, h2, h3⟩ := h
  have hlen := congrArg List.length h3
  simp at hlen
  have htot : ∀ m, (bytesBits w.buf).take m
      = bs.take m ++ List.replicate (min (m - bs.length) (8 - w.bitPos)) false := by
    intro m; rw [h3, List.take_append]; simp
  unfold setCursorAtInBit Rep
  simp only
  by_cases hb : (k + 7) / 8 ≤ w.buf.length
  · rw [if_pos hb]
    by_cases hk : k % 8 = 0
    · simp only [hk, if_true, ne_eq, not_true_eq_false, if_false]
      refine ⟨by omega, by omega, ?_⟩
      rw [bytesBits_take, htot]
      simp only [Nat.sub_self, List.replicate_zero, List.append_nil]
      rw [show 8 * ((k + 7) / 8) = k by omega]
      congr 2
      omega
    · simp only [hk, if_false]
      rw [if_pos (by omega)]
      refine ⟨by simp; omega, by simp; omega, ?_⟩
      simp only
      have hne : w.buf.take ((k + 7) / 8) ≠ [] := by
        apply List.ne_nil_of_length_pos
        rw [List.length_take]; omega
      rw [List.getLast?_eq_some_getLast hne]
      simp only [bytesBits_append, bytesBits_cons, bytesBits_nil, List.append_nil]
      rw [byteBits_mask _ _ (by omega), ← List.append_assoc]
      congr 1
      have e := bytesBits_take w.buf ((k + 7) / 8)
      rw [← List.dropLast_concat_getLast hne] at e
      simp only [bytesBits_append, bytesBits_cons, bytesBits_nil, List.append_nil] at e
      have hl : (w.buf.take ((k + 7) / 8)).dropLast.length = k / 8 := by
        rw [List.length_dropLast, List.length_take]; omega
      have := congrArg (List.take k) e
      rw [List.take_append, List.take_of_length_le (by rw [bytesBits_length, hl]; omega)] at this
      rw [show k - (bytesBits (w.buf.take ((k + 7) / 8)).dropLast).length = k % 8 by
        rw [bytesBits_length, hl]; omega] at this
      rw [this, List.take_take, htot]
      rw [show min k (8 * ((k + 7) / 8)) = k by omega]
      congr 2
      omega
  · rw [if_neg hb]
    have hbs : bs.length ≤ k := by omega
    rw [List.take_of_length_le hbs, bytesBits_append, bytesBits_replicate_zero, h3]
    simp only [List.append_assoc, List.replicate_append_replicate]
    refine ⟨?_, ?_, ?_⟩
    · split <;> omega
    · split <;> omega
    · congr 2
      split <;> omega

end BitWriter
end Ebi
