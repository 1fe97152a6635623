import Verif.Word

/-!
# Zigzag

`zigzag` (`ebi/src/compressor/sprintz.rs:232-236`) and `unzigzag`
(`ebi/src/decoder/chunk_reader/sprintz.rs:519-521`). `i64` is its two's complement pattern.
-/

namespace Ebi

/-- `zigzag`: `(origin << 1) ^ (origin >> 63)` with the arithmetic shift of `i64`. -/
def zigzag (origin : BitVec 64) : BitVec 64 := (origin <<< 1) ^^^ (origin.sshiftRight 63)

/-- `unzigzag`: `(origin >> 1) as i64 ^ -((origin & 1) as i64)`. -/
def unzigzag (origin : BitVec 64) : BitVec 64 := (origin >>> 1) ^^^ (-(origin &&& 1#64))

theorem neg_and_one (x : BitVec 64) :
    -(x &&& 1#64) = if x.getLsbD 0 then BitVec.allOnes 64 else 0#64 := by
  have h : x &&& 1#64 = if x.getLsbD 0 then 1#64 else 0#64 := by
    apply BitVec.eq_of_getLsbD_eq
    intro i hi
    rw [BitVec.getLsbD_and, BitVec.getLsbD_one]
    by_cases h0 : i = 0
    · subst h0; cases x.getLsbD 0 <;> simp
    · cases hx : x.getLsbD 0 <;> simp [h0, BitVec.getLsbD_one]
  rw [h]
  split <;> decide

theorem getLsbD_zigzag (x : BitVec 64) (i : Nat) (hi : i < 64) :
    (zigzag x).getLsbD i = ((if i = 0 then false else x.getLsbD (i - 1)) ^^ x.getLsbD 63) := by
  unfold zigzag
  rw [BitVec.getLsbD_xor, BitVec.getLsbD_shiftLeft, BitVec.getLsbD_sshiftRight]
  have hm : x.msb = x.getLsbD 63 := by simp [BitVec.msb_eq_getLsbD_last]
  by_cases h0 : i = 0
  · subst h0; simp
  · have : ¬ 63 + i < 64 := by omega
    have h1 : ¬ i < 1 := by omega
    simp [hi, h0, this, h1, hm]

theorem getLsbD_unzigzag (x : BitVec 64) (i : Nat) (hi : i < 64) :
    (unzigzag x).getLsbD i = ((if i = 63 then false else x.getLsbD (i + 1)) ^^ x.getLsbD 0) := by
  unfold unzigzag
  rw [BitVec.getLsbD_xor, BitVec.getLsbD_ushiftRight, neg_and_one]
  congr 1
  · split
    · subst_vars; simp
    · rw [Nat.add_comm]
  · cases x.getLsbD 0
    · simp
    · simp only [if_true, BitVec.getLsbD_allOnes, hi, decide_true]

theorem unzigzag_zigzag (x : BitVec 64) : unzigzag (zigzag x) = x := by
  apply BitVec.eq_of_getLsbD_eq
  intro i hi
  rw [getLsbD_unzigzag _ _ hi, getLsbD_zigzag _ 0 (by omega)]
  split
  · subst_vars; simp
  · rw [getLsbD_zigzag _ _ (by omega)]
    simp

theorem zigzag_unzigzag (x : BitVec 64) : zigzag (unzigzag x) = x := by
  apply BitVec.eq_of_getLsbD_eq
  intro i hi
  rw [getLsbD_zigzag _ _ hi, getLsbD_unzigzag _ 63 (by omega)]
  split
  · subst_vars; simp
  · rename_i h0
    rw [getLsbD_unzigzag _ _ (by omega), if_neg (by omega), show i - 1 + 1 = i by omega]
    simp

/-- Closed form of the code. -/
theorem zigzag_toNat (x : BitVec 64) :
    ((zigzag x).toNat : Int) = if x.toInt < 0 then -2 * x.toInt - 1 else 2 * x.toInt := by
  have hx := x.isLt
  unfold zigzag
  by_cases hm : x.msb = true
  · have e : x.sshiftRight 63 = BitVec.allOnes 64 := by
      apply BitVec.eq_of_getLsbD_eq
      intro i hi
      rw [BitVec.getLsbD_sshiftRight]
      by_cases h : 63 + i < 64
      · have : i = 0 := by omega
        subst this
        simp only [BitVec.msb_eq_getLsbD_last] at hm
        simpa using hm
      · rw [BitVec.getLsbD_allOnes, if_neg h, hm]
        have h64 : ¬ 64 ≤ i := by omega
        simp [hi, h64]
    have h2 : x.toInt = (x.toNat : Int) - 2 ^ 64 := by
      rw [BitVec.toInt_eq_msb_cond, hm]; simp
    have hge : 2 ^ 63 ≤ x.toNat := by
      have := BitVec.msb_eq_decide x
      rw [hm] at this
      simpa using this.symm
    rw [e, BitVec.xor_allOnes, BitVec.toNat_not, BitVec.toNat_shiftLeft, h2, if_pos (by omega),
      Nat.shiftLeft_eq]
    omega
  · have hm : x.msb = false := by simpa using hm
    have e : x.sshiftRight 63 = 0#64 := by
      apply BitVec.eq_of_getLsbD_eq
      intro i hi
      rw [BitVec.getLsbD_sshiftRight]
      by_cases h : 63 + i < 64
      · have : i = 0 := by omega
        subst this
        simp only [BitVec.msb_eq_getLsbD_last] at hm
        simpa using hm
      · simp [hi, h, hm]
    have h2 : x.toInt = (x.toNat : Int) := by
      rw [BitVec.toInt_eq_msb_cond, hm]; simp
    have hlt : x.toNat < 2 ^ 63 := by
      have := BitVec.msb_eq_decide x
      rw [hm] at this
      simpa using this.symm
    rw [e, BitVec.xor_zero, BitVec.toNat_shiftLeft, h2, if_neg (by omega), Nat.shiftLeft_eq]
    omega

end Ebi
