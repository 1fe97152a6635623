/-!
# Bit lists

Specification vocabulary shared by the whole development: an unsigned number written on
`n` bits, most significant bit first, and the number denoted by a list of bits.
Nothing here models code; it is the yardstick the code models are measured with.
-/

namespace Ebi

/-- A byte (`u8`). -/
abbrev Byte := BitVec 8

/-- The 64-bit pattern of an `f64`, or a `u64`. -/
abbrev B64 := BitVec 64

/-- The low `n` bits of `v`, most significant first. -/
def natBits (v : Nat) : Nat → List Bool
  | 0 => []
  | n + 1 => v.testBit n :: natBits v n

/-- The number denoted by a list of bits, most significant first. -/
def bitsNat : List Bool → Nat
  | [] => 0
  | b :: l => b.toNat * 2 ^ l.length + bitsNat l

/-- The eight bits of a byte, most significant first. -/
def byteBits (b : Byte) : List Bool := natBits b.toNat 8

@[simp] theorem natBits_zero (v : Nat) : natBits v 0 = [] := rfl

theorem natBits_succ (v n : Nat) : natBits v (n + 1) = v.testBit n :: natBits v n := rfl

@[simp] theorem natBits_length (v n : Nat) : (natBits v n).length = n := by
  induction n with
  | zero => rfl
  | succ n ih => simp [natBits_succ, ih]

@[simp] theorem byteBits_length (b : Byte) : (byteBits b).length = 8 := by simp [byteBits]

theorem natBits_append (v m n : Nat) :
    natBits v (m + n) = natBits (v >>> n) m ++ natBits v n := by
  induction m with
  | zero => simp
  | succ m ih =>
    rw [show m + 1 + n = (m + n) + 1 by omega, natBits_succ, natBits_succ, ih]
    simp [Nat.testBit_shiftRight, Nat.add_comm]

theorem natBits_getElem (v n i : Nat) (h : i < (natBits v n).length) :
    (natBits v n)[i] = v.testBit (n - 1 - i) := by
  induction n generalizing i with
  | zero => simp at h
  | succ n ih =>
    simp only [natBits_succ]
    cases i with
    | zero => simp
    | succ i =>
      simp only [List.getElem_cons_succ]
      rw [ih]
      congr 1; omega

theorem natBits_mod (v n : Nat) : natBits (v % 2 ^ n) n = natBits v n := by
  apply List.ext_getElem
  · simp
  · intro i h1 h2
    simp only [natBits_length] at h1
    rw [natBits_getElem, natBits_getElem, Nat.testBit_mod_two_pow]
    simp; omega

theorem bitsNat_natBits (v n : Nat) : bitsNat (natBits v n) = v % 2 ^ n := by
  induction n with
  | zero => simp [bitsNat, Nat.mod_one]
  | succ n ih =>
    rw [natBits_succ, bitsNat, ih, natBits_length]
    have h1 : v % 2 ^ (n + 1) = v % 2 ^ n + 2 ^ n * (v / 2 ^ n % 2) := by
      rw [Nat.pow_succ, Nat.mod_mul]
    rw [h1, Nat.add_comm, Nat.mul_comm, Nat.testBit_eq_decide_div_mod_eq]
    rcases Nat.mod_two_eq_zero_or_one (v / 2 ^ n) with h | h <;> simp [h]

theorem bitsNat_lt (l : List Bool) : bitsNat l < 2 ^ l.length := by
  induction l with
  | nil => simp [bitsNat]
  | cons b l ih =>
    simp only [bitsNat, List.length_cons, Nat.pow_succ]
    cases b <;> simp <;> omega

theorem bitsNat_append (a b : List Bool) :
    bitsNat (a ++ b) = bitsNat a * 2 ^ b.length + bitsNat b := by
  induction a with
  | nil => simp [bitsNat]
  | cons x a ih =>
    simp only [List.cons_append, bitsNat, ih, List.length_append, Nat.pow_add]
    rw [Nat.add_mul, Nat.mul_assoc, Nat.add_assoc]

theorem natBits_bitsNat (l : List Bool) : natBits (bitsNat l) l.length = l := by
  induction l with
  | nil => rfl
  | cons b l ih =>
    simp only [List.length_cons, natBits_succ, bitsNat]
    have hlt := bitsNat_lt l
    congr 1
    · rw [Nat.mul_comm, Nat.testBit_two_pow_mul_add _ hlt]
      cases b <;> simp
    · rw [← natBits_mod, Nat.mul_comm, Nat.mul_add_mod, natBits_mod, ih]

theorem natBits_inj {a b n : Nat} (ha : a < 2 ^ n) (hb : b < 2 ^ n)
    (h : natBits a n = natBits b n) : a = b := by
  have := congrArg bitsNat h
  rwa [bitsNat_natBits, bitsNat_natBits, Nat.mod_eq_of_lt ha, Nat.mod_eq_of_lt hb] at this

theorem byteBits_inj {a b : Byte} (h : byteBits a = byteBits b) : a = b := by
  apply BitVec.eq_of_toNat_eq
  exact natBits_inj a.isLt b.isLt h

theorem natBits_or (a b n : Nat) :
    natBits (a ||| b) n = List.zipWith or (natBits a n) (natBits b n) := by
  induction n with
  | zero => simp
  | succ n ih => simp [natBits_succ, ih]

theorem natBits_and (a b n : Nat) :
    natBits (a &&& b) n = List.zipWith and (natBits a n) (natBits b n) := by
  induction n with
  | zero => simp
  | succ n ih => simp [natBits_succ, ih]

theorem natBits_zero_val (n : Nat) : natBits 0 n = List.replicate n false := by
  induction n with
  | zero => simp
  | succ n ih => simp [natBits_succ, ih, List.replicate_succ]

/-- Bits of a list of bytes. -/
def bytesBits (l : List Byte) : List Bool := l.flatMap byteBits

@[simp] theorem bytesBits_nil : bytesBits [] = [] := rfl
@[simp] theorem bytesBits_cons (b : Byte) (l : List Byte) :
    bytesBits (b :: l) = byteBits b ++ bytesBits l := rfl
@[simp] theorem bytesBits_append (a b : List Byte) :
    bytesBits (a ++ b) = bytesBits a ++ bytesBits b := by
  simp [bytesBits]
@[simp] theorem bytesBits_length (l : List Byte) : (bytesBits l).length = 8 * l.length := by
  induction l with
  | nil => rfl
  | cons b l ih => simp [ih]; omega

theorem bytesBits_inj {a b : List Byte} (h : bytesBits a = bytesBits b) : a = b := by
  induction a generalizing b with
  | nil =>
    cases b with
    | nil => rfl
    | cons y b =>
      have := congrArg List.length h
      simp at this; omega
  | cons x a ih =>
    cases b with
    | nil =>
      have := congrArg List.length h
      simp at this
    | cons y b =>
      simp only [bytesBits_cons] at h
      have := List.append_inj h (by simp)
      rw [byteBits_inj this.1, ih this.2]

end Ebi
