import Verif.SoftRound

/-!
# Rounding with denominators

Cross-denominator monotonicity and the half-ulp error bound of `Soft.roundMag`.
-/

namespace Ebi.Soft

open Ebi

theorem roundMag_mono_cross {n d n' d' : Nat} (hd : 0 < d) (hd' : 0 < d') (h : n * d' ≤ n' * d) :
    roundMag n d ≤ roundMag n' d' := by
  rw [← Buff.roundMag_scale n d hd', ← Buff.roundMag_scale n' d' hd, Nat.mul_comm d' d]
  exact roundMag_mono h

/-- A representable quotient is not changed by rounding. -/
theorem roundMag_magVal_mul {m d : Nat} (hd : 0 < d) (h : m ≤ 0x7ff0000000000000) :
    roundMag (magVal m * d) d = m := by
  have := Buff.roundMag_scale (magVal m) 1 hd
  rw [Nat.one_mul] at this
  rw [this, roundMag_magVal h]

/-- Value of the pattern with exponent field `e` and a mantissa that may carry into it. -/
theorem magVal_carry {e q : Nat} (hq : q ≤ 2 ^ 53) (h : e = 0 ∨ 2 ^ 52 ≤ q) :
    magVal (e * 2 ^ 52 + q) = q * 2 ^ e := by
  unfold magVal
  by_cases h1 : q < 2 ^ 52
  · have he : e = 0 := by omega
    subst he
    rw [if_pos (by omega), show (0 * 2 ^ 52 + q) % 2 ^ 52 = q by omega, Nat.pow_zero, Nat.mul_one]
  · rw [if_neg (by omega)]
    by_cases h2 : q = 2 ^ 53
    · subst h2
      rw [show (e * 2 ^ 52 + 2 ^ 53) % 2 ^ 52 = 0 by omega,
        show (e * 2 ^ 52 + 2 ^ 53) / 2 ^ 52 - 1 = e + 1 by omega]
      have h3 : 2 ^ (e + 1) = 2 * 2 ^ e := Nat.pow_succ'
      rw [h3, ← Nat.mul_assoc]
    · rw [show (e * 2 ^ 52 + q) / 2 ^ 52 - 1 = e by omega,
        show 2 ^ 52 + (e * 2 ^ 52 + q) % 2 ^ 52 = q by omega]

theorem divRne_bound (n : Nat) {d : Nat} (hd : 0 < d) :
    2 * n ≤ (2 * divRne n d + 1) * d ∧ 2 * divRne n d * d ≤ 2 * n + d := by
  have h1 : d * (n / d) + n % d = n := Nat.div_add_mod n d
  have h2 : n % d < d := Nat.mod_lt _ hd
  unfold divRne
  simp only
  generalize n / d = q at *
  generalize n % d = r at *
  have e1 : (2 * q + 1) * d = 2 * (d * q) + d := by rw [Nat.add_mul, Nat.mul_assoc, Nat.mul_comm q d, Nat.one_mul]
  have e2 : 2 * q * d = 2 * (d * q) := by rw [Nat.mul_assoc, Nat.mul_comm q d]
  have e3 : (2 * (q + 1) + 1) * d = 2 * (d * q) + 3 * d := by
    rw [show 2 * (q + 1) + 1 = 2 * q + 3 by omega, Nat.add_mul, e2]
  have e4 : 2 * (q + 1) * d = 2 * (d * q) + 2 * d := by
    rw [show 2 * (q + 1) = 2 * q + 2 by omega, Nat.add_mul, e2]
  generalize d * q = x at *
  split
  · rw [e1, e2]; omega
  · split
    · rw [e3, e4]; omega
    · split
      · rw [e1, e2]; omega
      · rw [e3, e4]; omega

/-- The rounded value is a multiple `q * 2^e` within half a unit of the exact quotient. -/
theorem roundMag_spec {n d : Nat} (hd : 0 < d) (hfin : roundMag n d < 0x7ff0000000000000) :
    ∃ e q, magVal (roundMag n d) = q * 2 ^ e ∧ 2 * n ≤ (2 * q + 1) * (d * 2 ^ e) ∧
      2 * q * (d * 2 ^ e) ≤ 2 * n + d * 2 ^ e ∧ (e = 0 ∨ (2 ^ (52 + e) * d ≤ n ∧ 2 ^ 52 ≤ q)) ∧ q ≤ 2 ^ 53 ∧
      e = Nat.log2 (n / d) - 52 := by
  have hr : roundMag n d = (Nat.log2 (n / d) - 52) * 2 ^ 52 + divRne n (d * 2 ^ (Nat.log2 (n / d) - 52)) := by
    unfold roundMag at hfin ⊢
    simp only at hfin ⊢
    generalize (Nat.log2 (n / d) - 52) * 2 ^ 52 + divRne n (d * 2 ^ (Nat.log2 (n / d) - 52)) = x at *
    omega
  have hb := divRne_bound n (Nat.mul_pos hd (Nat.two_pow_pos (Nat.log2 (n / d) - 52)))
  have h3 : n / d / 2 ^ (Nat.log2 (n / d) - 52) < 2 ^ 53 := by
    apply Nat.div_lt_of_lt_mul
    rw [← Nat.pow_add]
    have : n / d < 2 ^ (Nat.log2 (n / d) + 1) := Nat.lt_log2_self
    exact Nat.lt_of_lt_of_le this (Nat.pow_le_pow_right (by decide) (by omega))
  have hq : divRne n (d * 2 ^ (Nat.log2 (n / d) - 52)) ≤ 2 ^ 53 := by
    have := divRne_le_succ n (d * 2 ^ (Nat.log2 (n / d) - 52))
    rw [← Nat.div_div_eq_div_mul] at this
    omega
  have hl : Nat.log2 (n / d) - 52 = 0 ∨ (2 ^ (52 + (Nat.log2 (n / d) - 52)) * d ≤ n ∧
      2 ^ 52 ≤ divRne n (d * 2 ^ (Nat.log2 (n / d) - 52))) := by
    by_cases h0 : Nat.log2 (n / d) - 52 = 0
    · exact Or.inl h0
    · right
      have hne : n / d ≠ 0 := by
        intro hc; rw [hc] at h0; simp at h0
      have h5 := Nat.log2_self_le hne
      have h6 : 2 ^ (52 + (Nat.log2 (n / d) - 52)) ≤ n / d := by
        rwa [show 52 + (Nat.log2 (n / d) - 52) = Nat.log2 (n / d) by omega]
      refine ⟨(Nat.le_div_iff_mul_le hd).1 h6, ?_⟩
      have h7 := le_divRne n (d * 2 ^ (Nat.log2 (n / d) - 52))
      rw [← Nat.div_div_eq_div_mul] at h7
      refine Nat.le_trans ?_ h7
      rw [Nat.le_div_iff_mul_le (Nat.two_pow_pos _), ← Nat.pow_add]
      exact h6
  generalize hE : Nat.log2 (n / d) - 52 = e at *
  refine ⟨e, divRne n (d * 2 ^ e), ?_, hb.1, hb.2, hl, hq, rfl⟩
  rw [hr]
  exact magVal_carry hq (hl.imp id And.right)

end Ebi.Soft
