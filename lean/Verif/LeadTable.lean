import Verif.Word

/-!
# The leading-zero tables shared by Chimp, Chimp128 and the Elf XOR layer
-/

namespace Ebi

/-- `LEADING_ROUND`, compressor/chimp.rs:60-64 (same table in chimp_n.rs:151-155, elf.rs:172-176). -/
def leadingRoundTable : List Nat :=
  [0, 0, 0, 0, 0, 0, 0, 0, 8, 8, 8, 8, 12, 12, 12, 12, 16, 16, 18, 18, 20, 20, 22, 22, 24, 24,
   24, 24, 24, 24, 24, 24, 24, 24, 24, 24, 24, 24, 24, 24, 24, 24, 24, 24, 24, 24, 24, 24, 24,
   24, 24, 24, 24, 24, 24, 24, 24, 24, 24, 24, 24, 24, 24, 24]

/-- `LEADING_REPRESENTATION` of the encoders, compressor/chimp.rs:54-58 (same in chimp_n.rs:145-149,
elf.rs:166-170). -/
def leadingReprTable : List Nat :=
  [0, 0, 0, 0, 0, 0, 0, 0, 1, 1, 1, 1, 2, 2, 2, 2, 3, 3, 4, 4, 5, 5, 6, 6, 7, 7, 7, 7, 7, 7,
   7, 7, 7, 7, 7, 7, 7, 7, 7, 7, 7, 7, 7, 7, 7, 7, 7, 7, 7, 7, 7, 7, 7, 7, 7, 7, 7, 7, 7, 7,
   7, 7, 7, 7]

/-- `LEADING_REPRESENTATION` of the decoders, decoder/chunk_reader/chimp.rs:38 (same in chimp_n.rs:142,
elf.rs:116). -/
def leadingDecodeTable : List Nat := [0, 8, 12, 16, 18, 20, 22, 24]

/-- Array indexing of the tables; the indices used are always below 64 resp. 8. -/
def leadingRound (i : Nat) : Nat := leadingRoundTable.getD i 0
def leadingRepr (i : Nat) : Nat := leadingReprTable.getD i 0
def leadingDecode (i : Nat) : Nat := leadingDecodeTable.getD i 0

theorem leadingTables : ∀ i < 64, leadingRound i ≤ i ∧ leadingRound i ≤ 24 ∧
    leadingRepr (leadingRound i) < 8 ∧ leadingDecode (leadingRepr (leadingRound i)) = leadingRound i := by
  decide

/-- Rounded leading zeros of a non-zero word. -/
def roundLz (x : Nat) : Nat := leadingRound (lz64 x)

theorem roundLz_le_lz {x : Nat} (h : x ≠ 0) : roundLz x ≤ lz64 x := (leadingTables _ (lz64_lt h)).1
theorem roundLz_le {x : Nat} (h : x ≠ 0) : roundLz x ≤ 24 := (leadingTables _ (lz64_lt h)).2.1
theorem repr_lt {x : Nat} (h : x ≠ 0) : leadingRepr (roundLz x) < 8 := (leadingTables _ (lz64_lt h)).2.2.1
theorem decode_repr {x : Nat} (h : x ≠ 0) : leadingDecode (leadingRepr (roundLz x)) = roundLz x :=
  (leadingTables _ (lz64_lt h)).2.2.2

theorem lt_of_roundLz {x : Nat} (h : x ≠ 0) (hx : x < 2 ^ 64) : x < 2 ^ (64 - roundLz x) :=
  lt_of_le_lz64 hx (roundLz_le_lz h)

theorem leadingDecode_le (i : Nat) : leadingDecode i ≤ 24 := by
  unfold leadingDecode
  rcases Nat.lt_or_ge i 8 with h | h
  · revert i; decide
  · rw [List.getD_eq_getElem?_getD, List.getElem?_eq_none (by simpa [leadingDecodeTable] using h)]; simp

/-- XORing back the shifted difference restores the value. -/
theorem restore_shift (v p : B64) (t : Nat) (ht : t ≤ tz64 (v ^^^ p).toNat) :
    p ^^^ (BitVec.ofNat 64 ((v ^^^ p).toNat >>> t) <<< t) = v := by
  have : BitVec.ofNat 64 ((v ^^^ p).toNat >>> t) <<< t = v ^^^ p := by
    apply BitVec.eq_of_toNat_eq
    rw [BitVec.toNat_shiftLeft, BitVec.toNat_ofNat]
    have hlt : (v ^^^ p).toNat >>> t < 2 ^ 64 := by
      rw [Nat.shiftRight_eq_div_pow]
      exact Nat.lt_of_le_of_lt (Nat.div_le_self _ _) (v ^^^ p).isLt
    rw [Nat.mod_eq_of_lt hlt, shift_back ht, Nat.mod_eq_of_lt (v ^^^ p).isLt]
  rw [this]; exact xor_cancel p v

theorem restore_zero (v p : B64) : p ^^^ BitVec.ofNat 64 (v ^^^ p).toNat = v := by
  rw [BitVec.ofNat_toNat, BitVec.setWidth_eq]; exact xor_cancel p v

end Ebi
