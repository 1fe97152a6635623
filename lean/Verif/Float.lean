import Verif.Bytes

/-!
# IEEE-754 binary64 on bit patterns: classification, comparison, exact value

No rounding here (see `SoftFloat.lean`). `f64` comparison operators of Rust are the IEEE ones: false
as soon as a NaN is involved, `-0.0 == 0.0`.
-/

namespace Ebi

/-- Magnitude bits (everything but the sign). -/
def mag (v : B64) : Nat := v.toNat % 2 ^ 63

/-- Sign bit. -/
def sgn (v : B64) : Bool := decide (2 ^ 63 ≤ v.toNat)

/-- `f64::is_nan`. -/
def isNaN (v : B64) : Bool := decide (0x7ff0000000000000 < mag v)

/-- `f64::is_infinite`. -/
def isInf (v : B64) : Bool := decide (mag v = 0x7ff0000000000000)

/-- `f64::is_finite`. -/
def isFinite (v : B64) : Bool := decide (mag v < 0x7ff0000000000000)

/-- Sign-magnitude number of a pattern. -/
def key (v : B64) : Int := if sgn v then -(mag v : Int) else mag v

/-- `a == b` on `f64`. -/
def feq (a b : B64) : Bool := !isNaN a && !isNaN b && decide (key a = key b)

/-- `a < b` on `f64`. -/
def flt (a b : B64) : Bool := !isNaN a && !isNaN b && decide (key a < key b)

/-- `a <= b` on `f64`. -/
def fle (a b : B64) : Bool := !isNaN a && !isNaN b && decide (key a ≤ key b)

/-- Positive infinity. -/
def posInf : B64 := 0x7ff0000000000000#64

/-- Negative infinity. -/
def negInf : B64 := 0xfff0000000000000#64

/-! ## Exact value, specification of the comparisons -/

/-- Exact value of a finite magnitude, in units of `2^-1074`: IEEE-754 binary64 with biased exponent
`m / 2^52` and fraction `m % 2^52`. -/
def magVal (m : Nat) : Nat :=
  if m / 2 ^ 52 = 0 then m % 2 ^ 52 else (2 ^ 52 + m % 2 ^ 52) * 2 ^ (m / 2 ^ 52 - 1)

/-- Exact value of a finite double, in units of `2^-1074`. -/
def exactVal (v : B64) : Int := if sgn v then -(magVal (mag v) : Int) else magVal (mag v)

theorem magVal_lt_succ (m : Nat) : magVal m < magVal (m + 1) := by
  unfold magVal
  have hd : m / 2 ^ 52 * 2 ^ 52 + m % 2 ^ 52 = m := Nat.div_add_mod' m _
  have hlt : m % 2 ^ 52 < 2 ^ 52 := Nat.mod_lt _ (by decide)
  generalize m / 2 ^ 52 = e at *
  generalize m % 2 ^ 52 = f at *
  by_cases hf : f + 1 < 2 ^ 52
  · have e1 : (m + 1) / 2 ^ 52 = e := by omega
    have e2 : (m + 1) % 2 ^ 52 = f + 1 := by omega
    rw [e1, e2]
    split
    · omega
    · exact Nat.mul_lt_mul_of_pos_right (by omega) (Nat.two_pow_pos _)
  · have e1 : (m + 1) / 2 ^ 52 = e + 1 := by omega
    have e2 : (m + 1) % 2 ^ 52 = 0 := by omega
    rw [e1, e2]
    simp only [Nat.add_one_ne_zero, if_false, Nat.add_zero, Nat.add_sub_cancel]
    split
    · rename_i h0
      subst h0
      omega
    · rename_i h0
      obtain ⟨k, rfl⟩ : ∃ k, e = k + 1 := ⟨e - 1, by omega⟩
      rw [Nat.add_sub_cancel, Nat.pow_succ 2 k, Nat.mul_comm (2 ^ k) 2, ← Nat.mul_assoc]
      exact Nat.mul_lt_mul_of_pos_right (by omega) (Nat.two_pow_pos _)

theorem magVal_lt {m n : Nat} (h : m < n) : magVal m < magVal n := by
  induction n with
  | zero => omega
  | succ n ih =>
    rcases Nat.lt_or_eq_of_le (Nat.le_of_lt_succ h) with h | h
    · exact Nat.lt_trans (ih h) (magVal_lt_succ n)
    · subst h; exact magVal_lt_succ m

theorem magVal_lt_iff {m n : Nat} : magVal m < magVal n ↔ m < n := by
  constructor
  · intro h
    rcases Nat.lt_trichotomy m n with h1 | h1 | h1
    · exact h1
    · subst h1; omega
    · have := magVal_lt h1; omega
  · exact magVal_lt

theorem magVal_inj {m n : Nat} : magVal m = magVal n ↔ m = n := by
  constructor
  · intro h
    rcases Nat.lt_trichotomy m n with h1 | h1 | h1
    · have := magVal_lt h1; omega
    · exact h1
    · have := magVal_lt h1; omega
  · intro h; rw [h]

theorem magVal_zero : magVal 0 = 0 := by decide

theorem magVal_pos {m : Nat} : 0 < magVal m ↔ 0 < m := by
  have := @magVal_lt_iff 0 m
  rwa [magVal_zero] at this

/-- Comparing sign-magnitude numbers is comparing exact values. -/
theorem exactVal_lt_iff (a b : B64) : exactVal a < exactVal b ↔ key a < key b := by
  unfold exactVal key
  have h1 := @magVal_lt_iff (mag a) (mag b)
  have h2 := @magVal_lt_iff (mag b) (mag a)
  have h3 := @magVal_pos (mag a)
  have h4 := @magVal_pos (mag b)
  split <;> split <;> omega

theorem exactVal_eq_iff (a b : B64) : exactVal a = exactVal b ↔ key a = key b := by
  have h1 := exactVal_lt_iff a b
  have h2 := exactVal_lt_iff b a
  omega

theorem exactVal_le_iff (a b : B64) : exactVal a ≤ exactVal b ↔ key a ≤ key b := by
  have h2 := exactVal_lt_iff b a
  omega

end Ebi
