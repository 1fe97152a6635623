import Verif.Bits

/-!
# 64-bit word helpers: `leading_zeros`, `trailing_zeros`

`u64::leading_zeros` / `u64::trailing_zeros` of the Rust standard library on a natural number below
`2^64` (both return 64 on zero).
-/

namespace Ebi

/-- `u64::leading_zeros` (std). -/
def lz64 (x : Nat) : Nat := if x = 0 then 64 else 63 - x.log2

/-- Count trailing zeros, at most `fuel`. -/
def tzAux : Nat → Nat → Nat
  | 0, _ => 0
  | f + 1, x => if x % 2 = 1 then 0 else tzAux f (x / 2) + 1

/-- `u64::trailing_zeros` (std). -/
def tz64 (x : Nat) : Nat := tzAux 64 x

/-- Bit pattern of `f64::NAN` (std): the quiet NaN with empty payload. Used as end marker by
`compressor/gorilla.rs:28`, `chimp.rs:94`, `chimp_n.rs:192`, `elf.rs:60`. -/
def nanBits : B64 := 0x7ff8000000000000#64

theorem lt_of_lz64 {x : Nat} (h : x < 2 ^ 64) : x < 2 ^ (64 - lz64 x) := by
  unfold lz64
  split
  · subst_vars; simp
  · have h1 : x < 2 ^ (x.log2 + 1) := Nat.lt_log2_self
    have h2 : x.log2 < 64 := by
      apply Nat.lt_of_not_le
      intro h3
      have := Nat.log2_self_le (n := x) (by assumption)
      have := Nat.pow_le_pow_right (n := 2) (by omega) h3
      omega
    rw [show 64 - (63 - x.log2) = x.log2 + 1 by omega]
    exact h1

theorem le_of_lz64 {x : Nat} (h0 : x ≠ 0) (h : x < 2 ^ 64) : 2 ^ (63 - lz64 x) ≤ x := by
  unfold lz64
  rw [if_neg h0]
  have h2 : x.log2 < 64 := by
    apply Nat.lt_of_not_le
    intro h3
    have := Nat.log2_self_le h0
    have := Nat.pow_le_pow_right (n := 2) (by omega) h3
    omega
  rw [show 63 - (63 - x.log2) = x.log2 by omega]
  exact Nat.log2_self_le h0

theorem lz64_lt {x : Nat} (h0 : x ≠ 0) : lz64 x < 64 := by
  unfold lz64; rw [if_neg h0]; omega

theorem lz64_le (x : Nat) : lz64 x ≤ 64 := by unfold lz64; split <;> omega

theorem tzAux_dvd (f x : Nat) : 2 ^ tzAux f x ∣ x := by
  induction f generalizing x with
  | zero => simp [tzAux]
  | succ f ih =>
    unfold tzAux
    split
    · simp
    · rw [Nat.pow_succ]
      have h2 : x = x / 2 * 2 := by omega
      conv => rhs; rw [h2]
      exact Nat.mul_dvd_mul (ih _) (Nat.dvd_refl 2)

theorem tz64_dvd (x : Nat) : 2 ^ tz64 x ∣ x := tzAux_dvd 64 x

theorem tz64_lt {x : Nat} (h0 : x ≠ 0) (h : x < 2 ^ 64) : tz64 x < 64 := by
  have hd := Nat.le_of_dvd (Nat.pos_of_ne_zero h0) (tz64_dvd x)
  rcases Nat.lt_or_ge (tz64 x) 64 with hh | hh
  · exact hh
  · have := Nat.pow_le_pow_right (n := 2) (by omega) hh
    omega

/-- Leading and trailing zeros of a non-zero word leave room for at least one bit. -/
theorem lz_tz {x : Nat} (h0 : x ≠ 0) (h : x < 2 ^ 64) : lz64 x + tz64 x ≤ 63 := by
  have h1 := lt_of_lz64 h
  have h2 := Nat.le_of_dvd (Nat.pos_of_ne_zero h0) (tz64_dvd x)
  have h3 : 2 ^ tz64 x < 2 ^ (64 - lz64 x) := Nat.lt_of_le_of_lt h2 h1
  have := (Nat.pow_lt_pow_iff_right (a := 2) (by omega)).1 h3
  omega

theorem tzAux_odd (f x : Nat) (h0 : x ≠ 0) (h : x < 2 ^ f) : (x / 2 ^ tzAux f x) % 2 = 1 := by
  induction f generalizing x with
  | zero => simp at h; omega
  | succ f ih =>
    unfold tzAux
    split
    · simpa
    · rw [Nat.pow_succ, Nat.mul_comm, ← Nat.div_div_eq_div_mul]
      exact ih _ (by omega) (by rw [Nat.pow_succ] at h; omega)

/-- The bit just above the trailing zeros is set. -/
theorem tz64_odd {x : Nat} (h0 : x ≠ 0) (h : x < 2 ^ 64) : (x / 2 ^ tz64 x) % 2 = 1 :=
  tzAux_odd 64 x h0 h

/-- Shifting right by no more than the trailing zeros loses nothing. -/
theorem shift_back {x t : Nat} (ht : t ≤ tz64 x) : (x >>> t) <<< t = x := by
  rw [Nat.shiftRight_eq_div_pow, Nat.shiftLeft_eq]
  exact Nat.div_mul_cancel (Nat.dvd_trans (Nat.pow_dvd_pow 2 ht) (tz64_dvd x))

/-- The shifted word fits the remaining width. -/
theorem shiftRight_lt {x l t : Nat} (h : x < 2 ^ (64 - l)) (hlt : l + t ≤ 64) :
    x >>> t < 2 ^ (64 - l - t) := by
  rw [Nat.shiftRight_eq_div_pow, Nat.div_lt_iff_lt_mul (Nat.two_pow_pos t), ← Nat.pow_add]
  rwa [show 64 - l - t + t = 64 - l by omega]

theorem lt_of_le_lz64 {x l : Nat} (h : x < 2 ^ 64) (hl : l ≤ lz64 x) : x < 2 ^ (64 - l) :=
  Nat.lt_of_lt_of_le (lt_of_lz64 h) (Nat.pow_le_pow_right (by omega) (by omega))

theorem xor_eq_zero {a b : B64} : (a ^^^ b).toNat = 0 ↔ a = b := by
  constructor
  · intro h
    have h2 : a ^^^ b = 0#64 := BitVec.eq_of_toNat_eq (by simpa using h)
    have : a = a ^^^ b ^^^ b := by rw [BitVec.xor_assoc]; simp
    rw [this, h2]; simp
  · intro h; subst h; simp

theorem xor_cancel (a b : B64) : a ^^^ (b ^^^ a) = b := by
  rw [BitVec.xor_comm b a, ← BitVec.xor_assoc]; simp

end Ebi
