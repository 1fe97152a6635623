import Verif.Driver
import Verif.DecimalRound
import Verif.SoftDiv

/-!
# Products up to 2^63 and the way through `i64`
-/

namespace Ebi.Soft

open Ebi Ebi.Elf Ebi.Decimal

attribute [local irreducible] roundMag magVal Elf.U

/-- Two to the 63, as a magnitude. -/
def top63 : Nat := 0x43e0000000000000

theorem top63_val : magVal top63 = 2 ^ 63 * U := by
  unfold top63
  decide +kernel

theorem top63_below : roundMag ((2 ^ 63 - 1) * U) 1 = top63 := by
  unfold top63
  decide +kernel

theorem ofInt_signed (s : Bool) (M : Nat) : ofInt (signed s M) = mk (s && M != 0) (roundMag (M * U) 1) := by
  unfold ofInt rnd signed
  rw [U_eq]
  cases s
  · simp only [Bool.false_eq_true, if_false, Int.natAbs_natCast, Bool.false_and]
    congr 1
  · simp only [if_true, Int.natAbs_neg, Int.natAbs_natCast, Bool.true_and]
    congr 1
    by_cases h : M = 0
    · subst h; rfl
    · rw [decide_eq_true (by omega), Eq.comm, bne_iff_ne]
      exact h

theorem feq_mk {s t : Bool} {m : Nat} (hm : m ≤ 0x7ff0000000000000) (h : m ≠ 0 → s = t) :
    feq (mk s m) (mk t m) = true := by
  unfold feq key
  rw [not_isNaN_mk _ hm, not_isNaN_mk _ hm, mag_mk _ (by omega), mag_mk _ (by omega), sgn_mk _ (by omega),
    sgn_mk _ (by omega)]
  by_cases h0 : m = 0
  · subst h0; simp
  · rw [h h0]; simp

/-- A number of magnitude up to 2^63 survives rounding to an integer, `as i64` and back. -/
theorem carried {x : B64} (h : mag x ≤ top63) : feq (ofInt (toI64 (Soft.round x)).toInt) (Soft.round x) = true := by
  rw [← mk_sgn_mag x]
  generalize sgn x = s
  generalize hm : mag x = m at h
  clear hm x
  have ht : top63 < 0x7ff0000000000000 := by decide
  have hp : (2 : Nat) ^ 1073 < U ∧ 0 < 2 ^ 1073 := by
    rw [← U_eq]
    exact ⟨Nat.pow_lt_pow_right (Nat.lt_succ_self 1) (Nat.lt_succ_self 1073), Nat.two_pow_pos _⟩
  by_cases hE : m / 2 ^ 52 < 1075
  · have hv : magVal m < 2 ^ 52 * U := by
      have h1 : magVal (1075 * 2 ^ 52) = 2 ^ 52 * U := by decide +kernel
      rw [← h1]
      apply magVal_lt
      omega
    have hM : (magVal m + 2 ^ 1073) / U < 2 ^ 53 := by
      rw [Nat.div_lt_iff_lt_mul U_pos]
      have : (2 : Nat) ^ 53 * U = 2 ^ 52 * U + 2 ^ 52 * U := by
        rw [← Nat.add_mul]
      have : U ≤ 2 ^ 52 * U := Nat.le_mul_of_pos_left _ (by decide)
      omega
    rw [round_toI64 (by omega) rfl hM, round_mk (by omega) rfl]
    generalize (magVal m + 2 ^ 1073) / U = M at hM
    have e0 : (BitVec.ofInt 64 (signed s M)).toInt = signed s M := by
      rw [BitVec.toInt_ofInt]
      unfold signed
      exact Int.bmod_eq_of_le (by split <;> omega) (by split <;> omega)
    rw [e0, ofInt_signed]
    refine feq_mk (roundMag_le _ _) fun hc => ?_
    have : M ≠ 0 := by
      intro h0
      subst h0
      apply hc
      have h1 := roundMag_magVal (m := 0) (by decide)
      rw [magVal_zero] at h1
      rw [Nat.zero_mul, h1]
    simp [this]
  · obtain ⟨K, hK⟩ : ∃ K, magVal m = K * U := by
      rw [magVal_normal (by omega)]
      refine ⟨(2 ^ 52 + m % 2 ^ 52) * 2 ^ (m / 2 ^ 52 - 1075), ?_⟩
      rw [Nat.mul_assoc, ← U_eq, ← Nat.pow_add]
      congr 2
      omega
    have hKle : K ≤ 2 ^ 63 := by
      have := magVal_mono h
      rw [top63_val, hK] at this
      exact Nat.le_of_mul_le_mul_right this U_pos
    have hM : (magVal m + 2 ^ 1073) / U = K := by
      rw [hK, Nat.add_comm, Nat.add_mul_div_right _ _ U_pos, Nat.div_eq_of_lt hp.1, Nat.zero_add]
    have hr : roundMag (K * U) 1 = m := by
      rw [← hK]
      exact roundMag_magVal (by omega)
    rw [round_mk (by omega) hM, hr]
    have g1 : mag (mk s m) = m := mag_mk _ (by omega)
    have g2 : sgn (mk s m) = s := sgn_mk _ (by omega)
    have hm0 : m ≠ 0 := by omega
    have hK0 : K ≠ 0 := by
      intro h0
      subst h0
      rw [Nat.zero_mul] at hK
      have := magVal_pos.2 (Nat.pos_of_ne_zero hm0)
      omega
    unfold toI64 absVal
    rw [isNaN_mk (by omega)]
    simp only [g1, g2, U_eq, hK, Nat.mul_div_cancel _ U_pos, Bool.false_eq_true, if_false]
    cases s
    · simp only [Bool.false_eq_true, if_false]
      have e0 : (BitVec.ofNat 64 (min K (2 ^ 63 - 1))).toInt = signed false (min K (2 ^ 63 - 1)) := by
        rw [BitVec.toInt_ofNat']
        unfold signed
        simp only [Bool.false_eq_true, if_false]
        exact Int.bmod_eq_of_le (by omega) (by omega)
      rw [e0, ofInt_signed, Bool.false_and]
      have : roundMag (min K (2 ^ 63 - 1) * U) 1 = m := by
        by_cases hlt : K < 2 ^ 63
        · rw [Nat.min_eq_left (by omega), hr]
        · have hKe : K = 2 ^ 63 := by omega
          subst hKe
          rw [Nat.min_eq_right (by decide), top63_below, ← magVal_inj, top63_val, hK]
      rw [this]
      exact feq_mk (by omega) fun _ => rfl
    · simp only [if_true]
      have e0 : (BitVec.ofInt 64 (-(min K (2 ^ 63) : Nat))).toInt = signed true K := by
        rw [BitVec.toInt_ofInt, Nat.min_eq_left hKle]
        unfold signed
        simp only [if_true]
        exact Int.bmod_eq_of_le (by omega) (by omega)
      rw [e0, ofInt_signed, hr]
      exact feq_mk (by omega) fun _ => by simp [hK0]

/-- Anything larger does not. -/
theorem not_carried {x : B64} (hn : isNaN x = false) (h : top63 < mag x) :
    feq (ofInt (toI64 (Soft.round x)).toInt) (Soft.round x) = false := by
  have hr : Soft.round x = x := by
    unfold Soft.round
    split
    · rename_i hf
      have hf := of_decide_eq_true hf
      have hx := mk_sgn_mag x
      generalize sgn x = s at hx
      generalize mag x = m at h hf hx
      subst hx
      have hp : (2 : Nat) ^ 1073 < U ∧ 0 < 2 ^ 1073 := by
        rw [← U_eq]
        exact ⟨Nat.pow_lt_pow_right (Nat.lt_succ_self 1) (Nat.lt_succ_self 1073), Nat.two_pow_pos _⟩
      have hE : 1075 ≤ m / 2 ^ 52 := by unfold top63 at h; omega
      obtain ⟨K, hK⟩ : ∃ K, magVal m = K * U := by
        rw [magVal_normal (by omega)]
        refine ⟨(2 ^ 52 + m % 2 ^ 52) * 2 ^ (m / 2 ^ 52 - 1075), ?_⟩
        rw [Nat.mul_assoc, ← U_eq, ← Nat.pow_add]
        congr 2
        omega
      unfold rnd absVal
      rw [mag_mk _ (by omega), U_eq, hK, Nat.add_comm, Nat.add_mul_div_right _ _ U_pos,
        Nat.div_eq_of_lt hp.1, Nat.zero_add, ← hK, roundMag_magVal (by omega)]
    · rfl
  rw [hr]
  have hle : mag x ≤ 0x7ff0000000000000 := by
    have := of_decide_eq_false hn
    omega
  have hbig : 2 ^ 63 * U ≤ absVal x := by
    unfold absVal
    rw [← top63_val]
    exact magVal_mono (by omega)
  have hdiv : 2 ^ 63 ≤ absVal x / 2 ^ 1074 := by
    rw [U_eq, Nat.le_div_iff_mul_le U_pos]
    exact hbig
  have ht : top63 < 0x7ff0000000000000 := by decide
  unfold toI64
  rw [hn]
  simp only [Bool.false_eq_true, if_false]
  rw [Nat.min_eq_right hdiv, Nat.min_eq_right (by omega)]
  cases hs : sgn x
  · simp only [Bool.false_eq_true, if_false]
    have e0 : (BitVec.ofNat 64 (2 ^ 63 - 1)).toInt = signed false (2 ^ 63 - 1) := by decide
    rw [e0, ofInt_signed, top63_below, Bool.false_and]
    unfold feq key
    rw [not_isNaN_mk _ (by omega), hn, mag_mk _ (by omega), sgn_mk _ (by omega), hs]
    simp
    omega
  · simp only [if_true]
    have e0 : (BitVec.ofInt 64 (-(2 ^ 63 : Nat))).toInt = signed true (2 ^ 63) := by decide
    have e1 : roundMag (2 ^ 63 * U) 1 = top63 := by
      rw [← top63_val]
      exact roundMag_magVal (by omega)
    rw [e0, ofInt_signed, e1]
    unfold feq key
    rw [not_isNaN_mk _ (by omega), hn, mag_mk _ (by omega), sgn_mk _ (by omega), hs]
    simp
    omega

theorem carried_only {x : B64} (hc : feq (ofInt (toI64 (Soft.round x)).toInt) (Soft.round x) = true) :
    mag x ≤ top63 := by
  apply Classical.byContradiction
  intro h
  have ht : top63 < 0x7ff0000000000000 := by decide
  cases hqn : isNaN x with
  | false =>
    rw [not_carried hqn (by omega)] at hc
    cases hc
  | true =>
    have hnf : isFinite x = false := by
      have := of_decide_eq_true hqn
      exact decide_eq_false (by omega)
    have : Soft.round x = x := by
      unfold Soft.round
      rw [hnf]
      rfl
    rw [this] at hc
    unfold feq at hc
    rw [hqn, Bool.not_true, Bool.and_false, Bool.false_and] at hc
    cases hc

/-- Multiplication by a finite number, in magnitudes. -/
theorem mul_mag {a b : B64} (ha : isFinite a = true) (hb : isFinite b = true) :
    mag (mul a b) = roundMag (magVal (mag a) * magVal (mag b)) (2 ^ 1074) := by
  have h1 := of_decide_eq_true ha
  have h2 := of_decide_eq_true hb
  unfold mul isNaN isInf
  have hle := roundMag_le (magVal (mag a) * magVal (mag b)) (2 ^ 1074)
  rw [if_neg (by simp; omega), if_neg (by simp; omega)]
  unfold rnd absVal
  exact mag_mk _ (by omega)

/-- A product with an infinity is not finite. -/
theorem mul_inf {a b : B64} (ha : isFinite a = false) : isFinite (mul a b) = false := by
  have h1 := of_decide_eq_false ha
  unfold mul isNaN isInf
  split
  · decide
  · rename_i h2
    simp at h2
    rw [if_pos (by simp; omega)]
    split
    · decide
    · unfold isFinite
      rw [mag_mk _ (by decide)]
      decide

/-- Zero, and an infinity times zero, aside: products of numbers are numbers. -/
theorem mul_number {a b : B64} (ha : isNaN a = false) (hb : isFinite b = true) (h : isNaN (mul a b) = true) :
    isFinite a = false ∧ mag b = 0 := by
  cases hf : isFinite a with
  | true =>
    have e := mul_mag hf hb
    have := roundMag_le (magVal (mag a) * magVal (mag b)) (2 ^ 1074)
    have := of_decide_eq_true h
    omega
  | false =>
    refine ⟨rfl, ?_⟩
    have h1 := of_decide_eq_false hf
    have h2 := of_decide_eq_false ha
    have h3 := of_decide_eq_true hb
    by_cases h0 : mag b = 0
    · exact h0
    · exfalso
      unfold mul isInf at h
      rw [if_neg (by simp [isNaN]; omega), if_pos (by simp; omega), if_neg (by simp; omega),
        not_isNaN_mk _ (by omega)] at h
      cases h

end Ebi.Soft
