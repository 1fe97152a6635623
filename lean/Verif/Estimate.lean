import Verif.Encoder
import Verif.ElfSig

/-!
# The record estimate of the byte-size option is exact below `2^51`
-/

namespace Ebi

open Ebi.Soft Ebi.Elf

attribute [local irreducible] roundMag magVal U

theorem eight : (0x4020000000000000#64 : B64) = mk false 0x4020000000000000 ∧ magVal 0x4020000000000000 = 8 * U := by
  refine ⟨by decide, ?_⟩
  rw [← U_eq]
  unfold magVal
  decide +kernel

theorem three_halves : (0x3ff8000000000000#64 : B64) = mk false 0x3ff8000000000000 ∧
    magVal 0x3ff8000000000000 * 2 = 3 * U := by
  refine ⟨by decide, ?_⟩
  rw [← U_eq]
  unfold magVal
  decide +kernel

/-- An exactly representable quotient. -/
theorem roundMag_quot {n d A s : Nat} (hd : 0 < d) (h : n = A * 2 ^ s * d) (hA : A < 2 ^ 53) (hs : s ≤ 2000) :
    magVal (roundMag n d) = A * 2 ^ s ∧ roundMag n d < 0x7ff0000000000000 := by
  have hx := Buff.roundMag_exact (A := A) (s := s) hA
    (Nat.lt_of_lt_of_le (Nat.mul_lt_mul_of_pos_right hA (Nat.two_pow_pos _)) (by
      rw [← Nat.pow_add]; exact Nat.pow_le_pow_right (by decide) (by omega)))
  have e := Buff.roundMag_scale (A * 2 ^ s) 1 hd
  rw [Nat.one_mul] at e
  rw [h, e]
  exact hx

theorem U_split {j k : Nat} (h : j + k = 1074) : U = 2 ^ j * 2 ^ k := by
  rw [← U_eq, ← Nat.pow_add, h]

theorem ceil_nat {P x : Nat} (hP : 0 < P) : (3 * x * P + (16 * P - 1)) / (16 * P) = (3 * x + 15) / 16 := by
  have e : 3 * x * P + (16 * P - 1) = (3 * x + 15) * P + (P - 1) := by
    rw [Nat.add_mul]; omega
  rw [e, Nat.mul_comm 16 P, ← Nat.div_div_eq_div_mul]
  congr 1
  rw [Nat.mul_comm, Nat.mul_add_div hP, Nat.div_eq_of_lt (a := P - 1) (by omega), Nat.add_zero]

theorem arith1 {n V P : Nat} (h : V = P * 2 ^ 3) : n * V * V = n * P * (8 * V) := by
  rw [Nat.mul_assoc]
  conv => lhs; arg 2; arg 1; rw [h]
  ac_rfl

theorem arith2 {n V P Q t : Nat} (h : Q = P * 2) (h3 : t * 2 = 3 * V) : n * Q * t = 3 * n * P * V := by
  have e : n * Q * t = n * P * (t * 2) := by rw [h]; ac_rfl
  rw [e, h3]
  ac_rfl

theorem ceil_units {n V P : Nat} (hP : 0 < P) (h : V = P * 2 ^ 4) : (3 * n * P + (V - 1)) / V = (3 * n + 15) / 16 := by
  have e : V = 16 * P := by rw [h, Nat.mul_comm]
  rw [e]
  exact ceil_nat hP

theorem step_div {n : Nat} (h : n < 2 ^ 51) : ∃ m, div (ofInt (n : Int)) 0x4020000000000000#64 = mk false m ∧
    magVal m = n * 2 ^ 1071 ∧ m < 0x7ff0000000000000 := by
  obtain ⟨a1, a2⟩ := exact_U (A := n) (s := 0) (by omega) (by decide)
  rw [Nat.pow_zero, Nat.mul_one] at a1 a2
  have e8 := eight
  refine ⟨roundMag (n * U * U) (8 * U), ?_, ?_⟩
  · rw [ofInt_nat, e8.1, div_mk a2 (by decide) (by decide), a1, e8.2, bne_self_eq_false]
  · exact roundMag_quot (Nat.mul_pos (by decide) U_pos) (arith1 (U_split (j := 1071) (k := 3) (by decide)))
      (by omega) (by decide)

theorem step_mul {n m Q P : Nat} (h : n < 2 ^ 51) (hm : magVal m = n * Q) (hQ : Q = P * 2) {s : Nat} (hP : P = 2 ^ s)
    (hs : s ≤ 2000) (hf : m < 0x7ff0000000000000) :
    ∃ r, mul (mk false m) 0x3ff8000000000000#64 = mk false r ∧ magVal r = 3 * n * P ∧ r < 0x7ff0000000000000 := by
  have e3 := three_halves
  refine ⟨roundMag (n * Q * magVal 0x3ff8000000000000) U, ?_, ?_⟩
  · rw [e3.1, mul_mk hf (by decide), hm, bne_self_eq_false]
  · rw [hP] at hQ ⊢
    exact roundMag_quot U_pos (arith2 hQ e3.2) (by omega) hs

theorem step_ceil {n r P : Nat} (hm : magVal r = 3 * n * P) (hP : 0 < P) (hU : U = P * 2 ^ 4)
    (hf : r < 0x7ff0000000000000) : ceil (mk false r) = mk false (roundMag ((3 * n + 15) / 16 * U) 1) := by
  have hlt : r < 2 ^ 63 := by omega
  unfold ceil isFinite rnd absVal
  rw [mag_mk _ hlt, sgn_mk _ hlt, hm, U_eq]
  rw [if_pos (by simpa using hf), if_neg Bool.false_ne_true, ceil_units hP hU]

theorem toUsize_nat {x : Nat} (h : x < 2 ^ 53) : toUsize (mk false (roundMag (x * U) 1)) = x := by
  obtain ⟨b1, b2⟩ := exact_U (A := x) (s := 0) h (by decide)
  rw [Nat.pow_zero, Nat.mul_one] at b1 b2
  have hlt2 : roundMag (x * U) 1 < 2 ^ 63 := by omega
  unfold toUsize absVal
  rw [isNaN_mk (by omega), sgn_mk _ hlt2, mag_mk _ hlt2, b1, U_eq, Nat.mul_div_cancel _ U_pos]
  simp only [Bool.or_self, Bool.false_eq_true, if_false]
  omega

/-- `((n as f64 / 8.0) * 1.5).ceil() as usize` is `⌈3n/16⌉`. -/
theorem estimateRecords_eq {n : Nat} (h : n < 2 ^ 51) : estimateRecords n = (3 * n + 15) / 16 := by
  obtain ⟨m, h1, h2, h3⟩ := step_div h
  obtain ⟨r, h4, h5, h6⟩ := step_mul h h2 (Nat.pow_succ 2 1070) rfl (by decide) h3
  unfold estimateRecords
  rw [h1, h4, step_ceil h5 (Nat.two_pow_pos 1070) (U_split (j := 1070) (k := 4) (by decide)) h6,
    toUsize_nat (by omega)]

end Ebi
