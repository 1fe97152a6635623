import Verif.Matrix
import Verif.DecimalRound

/-!
# Rounding to decimals, and arithmetic up to the sign of zero
-/

namespace Ebi.Decimal

open Ebi Ebi.Soft Ebi.Elf

attribute [local irreducible] roundMag magVal U

/-- `round(v * S) / S` is the double nearest to some `M / S`, and `M` is no larger than an integer bound on `|v| S`. -/
theorem roundByScale_nearest {v : B64} {S B : Nat} (hS : ExactInt S) (hfin : mag v < 0x7ff0000000000000)
    (hB : B < 2 ^ 51) (h : magVal (mag v) * S ≤ B * U) :
    ∃ M, M ≤ B ∧ div (Soft.round (mul v (ofInt (S : Int)))) (ofInt (S : Int)) = nearest (sgn v) M S := by
  have hx := exact_U (A := B) (s := 0) (by omega) (by decide)
  rw [Nat.pow_zero, Nat.mul_one] at hx
  have e1 : mul v (ofInt (S : Int)) = mk (sgn v) (roundMag (magVal (mag v) * S) 1) := by
    conv => lhs; rw [← mk_sgn_mag v]
    rw [ofInt_nat, mul_mk hfin hS.fin, hS.val]
    have := Buff.roundMag_scale (magVal (mag v) * S) 1 (k := U) U_pos
    rw [Nat.one_mul] at this
    rw [← Nat.mul_assoc, this, Bool.bne_false]
  have hr : roundMag (magVal (mag v) * S) 1 ≤ roundMag (B * U) 1 := roundMag_mono h
  have hv := magVal_mono hr
  rw [hx.1] at hv
  rw [e1]
  generalize roundMag (magVal (mag v) * S) 1 = r at *
  refine ⟨(magVal r + 2 ^ 1073) / U, ?_, ?_⟩
  · have hU : U = 2 * 2 ^ 1073 := by rw [← U_eq, show (1074 : Nat) = 1 + 1073 from rfl, Nat.pow_add]
    have hp : 0 < 2 ^ 1073 := Nat.two_pow_pos _
    generalize (2 : Nat) ^ 1073 = H at *
    apply Nat.le_of_lt_succ
    rw [Nat.div_lt_iff_lt_mul U_pos, Nat.succ_mul]
    omega
  · have hM : (magVal r + 2 ^ 1073) / U < 2 ^ 53 := by
      have hU : U = 2 * 2 ^ 1073 := by rw [← U_eq, show (1074 : Nat) = 1 + 1073 from rfl, Nat.pow_add]
      have hp : 0 < 2 ^ 1073 := Nat.two_pow_pos _
      generalize (2 : Nat) ^ 1073 = H at *
      apply Nat.lt_of_lt_of_le (m := B + 1)
      · rw [Nat.div_lt_iff_lt_mul U_pos, Nat.succ_mul]
        omega
      · omega
    rw [round_mk (by omega) rfl]
    generalize (magVal r + 2 ^ 1073) / U = M at *
    have hx := exact_U (A := M) (s := 0) (by omega) (by decide)
    rw [Nat.pow_zero, Nat.mul_one] at hx
    rw [ofInt_nat, div_mk hx.2 hS.fin hS.mag_ne, hx.1, hS.val, Buff.roundMag_scale _ _ U_pos, Bool.bne_false]
    rfl

/-- `0.5`, `1.0`, `8.0` as magnitudes. -/
theorem half_val : magVal 0x3fe0000000000000 = 2 ^ 1073 := by unfold magVal; decide +kernel
theorem one_val : magVal 0x3ff0000000000000 = 2 ^ 1074 := by unfold magVal; decide +kernel
theorem eight_val : magVal 0x4020000000000000 = 8 * 2 ^ 1074 := by unfold magVal; decide +kernel
theorem four_val : magVal 0x4010000000000000 = 4 * 2 ^ 1074 := by unfold magVal; decide +kernel

/-- A number from 0 to 1 becomes one from -4 to 4. -/
theorem mapValue_bound {x : B64} (hs : sgn x = false) (hm : mag x ≤ 0x3ff0000000000000) :
    mag (Matrix.mapValue Soft.ops x) ≤ 0x4010000000000000 := by
  have hsub : mag (sub x 0x3fe0000000000000#64) ≤ 0x3fe0000000000000 := by
    have hn : neg 0x3fe0000000000000#64 = 0xbfe0000000000000#64 := by decide
    unfold sub
    rw [hn]
    unfold add
    have n1 : isNaN x = false := by unfold isNaN; simp; omega
    have n2 : isNaN 0xbfe0000000000000#64 = false := by decide
    have i1 : isInf x = false := by unfold isInf; simp; omega
    have i2 : isInf 0xbfe0000000000000#64 = false := by decide
    rw [n1, n2, i1, i2]
    simp only [Bool.or_self, Bool.false_eq_true, if_false]
    have e1 : exactVal x = (magVal (mag x) : Int) := by unfold exactVal; rw [hs]; rfl
    have e2 : exactVal 0xbfe0000000000000#64 = -((2 ^ 1073 : Nat) : Int) := by
      unfold exactVal
      rw [show sgn 0xbfe0000000000000#64 = true by decide, show mag 0xbfe0000000000000#64 = 0x3fe0000000000000 by decide,
        half_val]
      rfl
    have hv := magVal_mono hm
    rw [one_val] at hv
    rw [e1, e2]
    have hpow : (2 : Nat) ^ 1074 = 2 * 2 ^ 1073 := by rw [show (1074 : Nat) = 1 + 1073 from rfl, Nat.pow_add]
    have hr : roundMag (2 ^ 1073) 1 = 0x3fe0000000000000 := by
      rw [← half_val]
      exact roundMag_magVal (by decide)
    rw [hpow] at hv
    generalize (2 : Nat) ^ 1073 = H at *
    split
    · split
      · rw [mag_mk true (by decide)]; decide
      · rw [mag_mk false (by decide)]; decide
    · have hle : roundMag ((magVal (mag x) : Int) + -(H : Int)).natAbs 1 ≤ roundMag H 1 := roundMag_mono (by omega)
      unfold rnd
      rw [mag_mk _ (by omega)]
      omega
  have e : Matrix.mapValue Soft.ops x = mul (sub x 0x3fe0000000000000#64) 0x4020000000000000#64 := rfl
  rw [e]
  generalize sub x 0x3fe0000000000000#64 = y at *
  have h8 : (0x4020000000000000#64 : B64) = mk false 0x4020000000000000 := by decide
  rw [← mk_sgn_mag y, h8, mul_mk (by omega) (by decide), eight_val, U_eq]
  have hv := magVal_mono hsub
  rw [half_val] at hv
  have hr : roundMag (magVal (mag y) * (8 * U)) U ≤ roundMag (4 * U) 1 := by
    have h1 := Buff.roundMag_scale (magVal (mag y) * 8) 1 (k := U) U_pos
    rw [Nat.one_mul, Nat.mul_assoc] at h1
    rw [h1]
    apply roundMag_mono
    have hpow : U = 2 * 2 ^ 1073 := by rw [← U_eq, show (1074 : Nat) = 1 + 1073 from rfl, Nat.pow_add]
    generalize (2 : Nat) ^ 1073 = H at *
    omega
  have h4 : roundMag (4 * U) 1 = 0x4010000000000000 := by
    rw [← U_eq, ← four_val]
    exact roundMag_magVal (by decide)
  rw [mag_mk _ (by omega)]
  omega

/-! ### Up to the sign of zero -/

/-- The same number: the same double, or two zeros. -/
def SameUpToZero (a b : B64) : Prop := a = b ∨ (mag a = 0 ∧ mag b = 0)

theorem SameUpToZero.refl (a : B64) : SameUpToZero a a := Or.inl rfl

theorem zero_flags {a : B64} (h : mag a = 0) : isNaN a = false ∧ isInf a = false ∧ exactVal a = 0 := by
  refine ⟨?_, ?_, exactVal_eq_zero.2 h⟩
  · unfold isNaN; simp; omega
  · unfold isInf; simp; omega

theorem SameUpToZero.flags {a b : B64} (h : SameUpToZero a b) : isNaN a = isNaN b ∧ isInf a = isInf b ∧
    exactVal a = exactVal b ∧ mag a = mag b := by
  rcases h with rfl | ⟨h1, h2⟩
  · exact ⟨rfl, rfl, rfl, rfl⟩
  · obtain ⟨a1, a2, a3⟩ := zero_flags h1
    obtain ⟨b1, b2, b3⟩ := zero_flags h2
    exact ⟨by rw [a1, b1], by rw [a2, b2], by rw [a3, b3], by rw [h1, h2]⟩

theorem SameUpToZero.add {a a' b b' : B64} (h : SameUpToZero a a') (h' : SameUpToZero b b') :
    SameUpToZero (Soft.add a b) (Soft.add a' b') := by
  obtain ⟨h1, h2, h3, h4⟩ := h.flags
  obtain ⟨g1, g2, g3, g4⟩ := h'.flags
  have ia : isInf a = true → a = a' := by
    intro hi
    rcases h with h | ⟨h, -⟩
    · exact h
    · rw [(zero_flags h).2.1] at hi; cases hi
  have ib : isInf b = true → b = b' := by
    intro hi
    rcases h' with h | ⟨h, -⟩
    · exact h
    · rw [(zero_flags h).2.1] at hi; cases hi
  unfold Soft.add
  rw [← h1, ← h2, ← h3, ← g1, ← g2, ← g3]
  split
  · exact .refl _
  · split
    · rename_i hi
      rw [← ia hi]
      split
      · rename_i hb
        rw [Bool.and_eq_true] at hb
        rw [← ib hb.1, if_pos (by rw [Bool.and_eq_true]; exact hb)]
        exact .refl _
      · rename_i hb
        by_cases hbi : isInf b = true
        · rw [← ib hbi, if_neg hb]
          exact .refl _
        · rw [if_neg (by rw [Bool.and_eq_true]; exact fun hc => hbi hc.1)]
          exact .refl _
    · split
      · rename_i hi
        rw [← ib hi]
        exact .refl _
      · simp only
        split
        · right
          constructor
          · split
            · exact mag_mk true (by decide)
            · exact mag_mk false (by decide)
          · split
            · exact mag_mk true (by decide)
            · exact mag_mk false (by decide)
        · exact .refl _

theorem SameUpToZero.mul {a a' b b' : B64} (h : SameUpToZero a a') (h' : SameUpToZero b b') :
    SameUpToZero (Soft.mul a b) (Soft.mul a' b') := by
  obtain ⟨h1, h2, -, h4⟩ := h.flags
  obtain ⟨g1, g2, -, g4⟩ := h'.flags
  by_cases hz : mag a = 0 ∨ mag b = 0
  · unfold Soft.mul
    rw [← h1, ← h2, ← h4, ← g1, ← g2, ← g4]
    have hz' : (decide (mag a = 0) || decide (mag b = 0)) = true := by simpa using hz
    simp only
    split
    · exact .refl _
    · split
      · exact .refl _
      · right
        have e : Soft.absVal a * Soft.absVal b = 0 ∧ Soft.absVal a' * Soft.absVal b' = 0 := by
          unfold absVal
          rw [← h4, ← g4]
          have m0 : magVal 0 = 0 := by unfold magVal; rfl
          rcases hz with hz | hz
          · rw [hz, m0]; simp
          · rw [hz, m0]; simp
        have r0 : roundMag 0 U = 0 := by
          have := Buff.roundMag_scale 0 1 (k := U) U_pos
          rw [Nat.zero_mul, Nat.one_mul] at this
          rw [this]
          have h0 := roundMag_magVal (m := 0) (by decide)
          rwa [show magVal 0 = 0 by unfold magVal; rfl] at h0
        rw [e.1, e.2]
        unfold rnd
        rw [U_eq, r0]
        exact ⟨mag_mk _ (by decide), mag_mk _ (by decide)⟩
  · have ea : a = a' := by
      rcases h with h | ⟨h, -⟩
      · exact h
      · exact absurd (Or.inl h) hz
    have eb : b = b' := by
      rcases h' with h | ⟨h, -⟩
      · exact h
      · exact absurd (Or.inr h) hz
    rw [ea, eb]
    exact .refl _

end Ebi.Decimal
